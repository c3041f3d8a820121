import Verif.Lemmas.Readers
import Verif.Props.Builder

/-!
# Properties of the network readers: C37, C38, C39
-/

namespace Pytspl

/-! ## C37: extraction of nodes and edges -/

private theorem links_iff (t : Table) (src dst : String) (zero : Bool) (links : List Edge) :
    Links t src dst zero links ↔
      List.Forall₂ (fun row l => rowIds src dst zero row = .ok l) t.rows links := by
  unfold Links
  constructor <;> intro h <;> refine h.imp fun row l hl => ?_
  · exact (rowIds_ok src dst zero row l).mpr hl
  · exact (rowIds_ok src dst zero row l).mp hl

private theorem extract_eq {t : Table} {src dst : String} {zero : Bool} {links : List Edge}
    (hl : Links t src dst zero links) (hne : links ≠ []) :
    ∃ m, LargestId links m ∧ extractNodesEdges t src dst zero =
      .ok (pyRange (m + 1), sortedPairs (links.foldl addLink ([], [])).2) := by
  unfold extractNodesEdges
  rw [extract_loop ((links_iff _ _ _ _ _).mp hl)]
  have hn := addLink_nodes links ([], [])
  simp only [List.not_mem_nil, false_or] at hn
  have hne' : (links.foldl addLink ([], [])).1 ≠ [] := by
    obtain ⟨l, ls, rfl⟩ := List.exists_cons_of_ne_nil hne
    exact List.ne_nil_of_mem ((hn l.1).mpr ⟨l, by simp, .inl rfl⟩)
  obtain ⟨m, h1, h2, h3⟩ := nodesUpToMax_nonempty hne'
  refine ⟨m, ⟨(hn m).mp h1, fun l hl => ?_⟩, ?_⟩
  · exact ⟨h2 _ ((hn _).mpr ⟨l, hl, .inl rfl⟩), h2 _ ((hn _).mpr ⟨l, hl, .inr rfl⟩)⟩
  · simp only [bind, Except.bind, h3]
    rfl

private theorem mem_extracted (links : List Edge) (e : Edge) :
    e ∈ sortedPairs (links.foldl addLink ([], [])).2 ↔ FirstSeen links e := by
  rw [(sortedPairs_perm _).mem_iff, addLink_edges]
  simp

private theorem noRepeats_perm {l l' : List Edge} (hp : l.Perm l') (h : NoRepeats l) :
    NoRepeats l' := by
  refine (hp.pairwise_iff ?_).mp h
  rintro x y ⟨h1, h2⟩
  refine ⟨fun h => h1 h.symm, fun h => h2 ?_⟩
  rw [h, Prod.swap_swap]

private theorem noRepeats_extracted (links : List Edge) :
    NoRepeats (sortedPairs (links.foldl addLink ([], [])).2) :=
  noRepeats_perm (sortedPairs_perm _).symm (addLink_noRepeats links _ (by simp [NoRepeats]))

/-- C37: for every non-empty table of links the extraction returns; the edges are strictly sorted, are
exactly the links that were first seen in that direction, and no pair occurs in both directions; the
nodes are `0, ..., largest id`. -/
theorem C37_extraction (t : Table) (src dst : String) (zero : Bool) (links : List Edge)
    (hl : Links t src dst zero links) (hne : links ≠ []) :
    ∃ nodes edges, extractNodesEdges t src dst zero = .ok (nodes, edges) ∧
      StrictlySorted edges ∧ NoRepeats edges ∧
      (∀ e, e ∈ edges ↔ FirstSeen links e) ∧
      (∀ l ∈ links, l ∈ edges ∨ l.swap ∈ edges) ∧
      (∀ l ∈ links, l ∈ edges → l.swap ∈ edges → l.1 = l.2) ∧
      ∃ m, LargestId links m ∧ nodes = (List.range (m + 1).toNat).map fun i : ℕ => (i : Int) := by
  obtain ⟨m, hm, h⟩ := extract_eq hl hne
  have hnr := noRepeats_extracted links
  refine ⟨_, _, h, sortedPairs_strict (addLink_noRepeats links _ (by simp [NoRepeats])).nodup, hnr,
    mem_extracted links, ?_, ?_, m, hm, rfl⟩
  · intro l hl
    rw [mem_extracted, mem_extracted]
    clear h hm hnr hne
    -- the earliest link between the two nodes is first seen
    have key : ∀ ls : List Edge, l ∈ ls ∨ l.swap ∈ ls → FirstSeen ls l ∨ FirstSeen ls l.swap := by
      intro ls
      induction ls with
      | nil => simp
      | cons x ls ih =>
        intro h
        by_cases hx : x = l
        · exact .inl ⟨[], ls, by simp [hx], by simp, by simp⟩
        by_cases hx' : x = l.swap
        · exact .inr ⟨[], ls, by simp [hx'], by simp, by simp⟩
        have hlift : ∀ y : Edge, y = l ∨ y = l.swap → FirstSeen ls y → FirstSeen (x :: ls) y := by
          rintro y hy ⟨pre, post, e, h1, h2⟩
          refine ⟨x :: pre, post, by simp [e], ?_, ?_⟩
          · simp only [List.mem_cons, not_or]
            refine ⟨?_, h1⟩
            rcases hy with rfl | rfl
            · exact fun h => hx h.symm
            · exact fun h => hx' h.symm
          · simp only [List.mem_cons, not_or]
            refine ⟨?_, h2⟩
            rcases hy with rfl | rfl
            · exact fun h => hx' h.symm
            · rw [Prod.swap_swap]; exact fun h => hx h.symm
        rcases ih (by
          rcases h with h | h
          · exact .inl ((List.mem_cons.mp h).resolve_left fun h => hx h.symm)
          · exact .inr ((List.mem_cons.mp h).resolve_left fun h => hx' h.symm)) with h' | h'
        · exact .inl (hlift _ (.inl rfl) h')
        · exact .inr (hlift _ (.inr rfl) h')
    exact key links (.inl hl)
  · intro l _ h1 h2
    by_contra hne'
    obtain ⟨i, hi, e1⟩ := List.getElem_of_mem h1
    obtain ⟨j, hj, e2⟩ := List.getElem_of_mem h2
    have hp := List.pairwise_iff_getElem.mp hnr
    rcases lt_trichotomy i j with hlt | rfl | hlt
    · exact (hp i j hi hj hlt).2 (by rw [e1, e2, Prod.swap_swap])
    · rw [e1] at e2
      exact hne' (congrArg Prod.fst e2)
    · exact (hp j i hj hi hlt).2 (by rw [e1, e2])

/-- C37: nothing else is ever returned: if the extraction returns, the rows describe links. -/
theorem C37_only_links (t : Table) (src dst : String) (zero : Bool) (r)
    (h : extractNodesEdges t src dst zero = .ok r) :
    ∃ links, links ≠ [] ∧ Links t src dst zero links := by
  unfold extractNodesEdges at h
  cases hf : t.rows.foldlM (extractStep src dst zero) ([], []) with
  | error e => rw [hf] at h; cases h
  | ok st =>
    obtain ⟨links, hl⟩ := extract_loop_ok hf
    refine ⟨links, ?_, (links_iff _ _ _ _ _).mpr hl⟩
    rintro rfl
    rw [extract_loop hl] at h
    cases h

/-- a table with three rows, one of them a repetition in the other direction, ids counted from one -/
def sampleTable : Table where
  cols := ["a", "b", "w"]
  rows := [[("a", .num 2), ("b", .num 3), ("w", .num 7)], [("a", .num 3), ("b", .num 2), ("w", .num 5)],
    [("a", .num 1), ("b", .num 2), ("w", .num 9)]]
  rect := by decide

private theorem truncates_int (a : Int) : Truncates (a : ℚ) a := by
  rcases le_total 0 a with h | h
  · exact .inl ⟨by exact_mod_cast h, by simp⟩
  · exact .inr ⟨by exact_mod_cast h, by simp⟩

theorem sampleTable_links : Links sampleTable "a" "b" false [(1, 2), (2, 1), (0, 1)] := by
  refine .cons ⟨.num 2, .num 3, by decide, by decide, .inl ⟨2, rfl, ?_⟩, .inl ⟨3, rfl, ?_⟩⟩
    (.cons ⟨.num 3, .num 2, by decide, by decide, .inl ⟨3, rfl, ?_⟩, .inl ⟨2, rfl, ?_⟩⟩
    (.cons ⟨.num 1, .num 2, by decide, by decide, .inl ⟨1, rfl, ?_⟩, .inl ⟨2, rfl, ?_⟩⟩ .nil))
  · exact truncates_int 2
  · exact truncates_int 3
  · exact truncates_int 3
  · exact truncates_int 2
  · exact truncates_int 1
  · exact truncates_int 2

/-- ids written as texts, as pandas keeps them if the column also has other texts -/
example : Links ⟨["a", "b"], [[("a", .str "2"), ("b", .str " 1_3 ")]], by decide⟩ "a" "b" false [(1, 12)] :=
  .cons ⟨.str "2", .str " 1_3 ", by decide, by decide, .inr ⟨_, rfl, (intText_iff _ _).2 (by decide)⟩,
    .inr ⟨_, rfl, (intText_iff _ _).2 (by decide)⟩⟩ .nil

example : ∃ links, links ≠ [] ∧ Links sampleTable "a" "b" false links := ⟨_, by simp, sampleTable_links⟩

private theorem bind_ok {α β : Type} {x : Py α} {f : α → Py β} {r : β} (h : (x >>= f) = .ok r) :
    ∃ a, x = .ok a ∧ f a = .ok r := by
  cases x with
  | error e => cases h
  | ok a => exact ⟨a, rfl, h⟩

/-- C37: `read_csv` returns the extracted nodes and edges. -/
theorem C37_read_csv (t : Table) (src dst : String) (fc) (zero : Bool) (b : SCBuilder)
    (h : readCsv (some t) src dst fc zero = .ok b) :
    extractNodesEdges t src dst zero = .ok (b.nodes, b.edges) ∧ b.nodeFeatures = [] := by
  unfold readCsv at h
  obtain ⟨⟨nodes, edges⟩, h1, h⟩ := bind_ok h
  cases fc with
  | none => cases h
  | some fc =>
    obtain ⟨ef, h2, h⟩ := bind_ok h
    cases h
    exact ⟨h1, rfl⟩

private theorem get?_filter {κ ν : Type} [DecidableEq κ] (d : Dict κ ν) (p : κ → Bool) (k : κ) (hk : p k = true) :
    Dict.get? (d.filter fun kv => p kv.1) k = d.get? k := by
  induction d with
  | nil => rfl
  | cons q d ih =>
    obtain ⟨k', v⟩ := q
    rw [List.filter_cons]
    by_cases hk' : k' = k
    · subst hk'
      simp only [hk, if_true, Dict.get?]
    · split
      · simp only [Dict.get?, hk', if_false, ih]
      · simp only [Dict.get?, hk', if_false, ih]

/-- C37: `read_tntp` returns the nodes and edges extracted from the rows of the file, whose column names
it strips of white space. -/
theorem C37_read_tntp (t : Table) (src dst : String) (zero : Bool) (b : SCBuilder)
    (hs : src ≠ "~" ∧ src ≠ ";") (hd : dst ≠ "~" ∧ dst ≠ ";")
    (h : readTntp (some t) src dst zero = .ok b) :
    extractNodesEdges (t.rename pyStrip) src dst zero = .ok (b.nodes, b.edges) ∧
      b.nodeFeatures = [] := by
  unfold readTntp at h
  obtain ⟨df, h0, h⟩ := bind_ok h
  obtain ⟨⟨nodes, edges⟩, h1, h⟩ := bind_ok h
  obtain ⟨ef, h2, h⟩ := bind_ok h
  cases h
  refine ⟨?_, rfl⟩
  rw [← h1]
  unfold Table.drop at h0
  split_ifs at h0 with hc
  cases h0
  unfold extractNodesEdges
  congr 1
  simp only [List.foldlM_map]
  congr 1
  funext st row
  unfold extractStep
  congr 1
  unfold rowIds
  simp only [Dict.getItem_eq]
  rw [get?_filter row (fun k => decide (k ∉ ["~", ";"])) src (by simp [hs]),
    get?_filter row (fun k => decide (k ∉ ["~", ";"])) dst (by simp [hd])]

/-! ## C38: malformed tables -/

/-- C38: an empty table is a `ValueError`, whatever its columns. -/
theorem C38_empty (t : Table) (src dst : String) (zero : Bool) (h : t.rows = []) :
    extractNodesEdges t src dst zero = .error .valueError ∧
    ∀ fc, readCsv (some t) src dst fc zero = .error .valueError := by
  have : extractNodesEdges t src dst zero = .error .valueError := by
    unfold extractNodesEdges
    rw [h]
    rfl
  refine ⟨this, fun fc => ?_⟩
  unfold readCsv
  simp only [this, bind, Except.bind]

private theorem mem_cols {t : Table} {row : Dict String Cell} (hr : row ∈ t.rows) (c : String) :
    row.get? c = none ↔ c ∉ t.cols := by
  rw [Dict.get?_eq_none, t.rect row hr]

private theorem extract_error {t : Table} {src dst : String} {zero : Bool} {row rows} {e : PyErr}
    (hr : t.rows = row :: rows) (h : rowIds src dst zero row = .error e) :
    extractNodesEdges t src dst zero = .error e ∧
      ∀ fc, readCsv (some t) src dst fc zero = .error e := by
  have : extractNodesEdges t src dst zero = .error e := by
    unfold extractNodesEdges
    rw [hr, List.foldlM_cons]
    simp only [extractStep, h, bind, Except.bind]
  refine ⟨this, fun fc => ?_⟩
  unfold readCsv
  simp only [this, bind, Except.bind]

/-- C38: on a non-empty table a missing source column is a `KeyError`; so is a missing destination
column when the first source id is one (a number, or the text of an integer). -/
theorem C38_missing_column (t : Table) (src dst : String) (zero : Bool) (hne : t.rows ≠ []) :
    (src ∉ t.cols → extractNodesEdges t src dst zero = .error .keyError ∧
      ∀ fc, readCsv (some t) src dst fc zero = .error .keyError) ∧
    (dst ∉ t.cols → (∀ row, t.rows.head? = some row → ∃ c a, row.get? src = some c ∧ IdOf c a) →
      extractNodesEdges t src dst zero = .error .keyError ∧
      ∀ fc, readCsv (some t) src dst fc zero = .error .keyError) := by
  obtain ⟨row, rows, hr⟩ := List.exists_cons_of_ne_nil hne
  have hm : row ∈ t.rows := by rw [hr]; simp
  constructor
  · intro h
    apply extract_error hr
    unfold rowIds
    rw [Dict.getItem_eq, (mem_cols hm src).mpr h]
    rfl
  · intro h hq
    obtain ⟨c, a, hq, ha⟩ := hq row (by rw [hr]; rfl)
    apply extract_error hr
    unfold rowIds
    rw [Dict.getItem_eq, hq, Dict.getItem_eq, (mem_cols hm dst).mpr h]
    simp only [bind, Except.bind, toInt_ok.2 ha]

example : "z" ∉ sampleTable.cols ∧ sampleTable.rows ≠ [] ∧
    ∀ row, sampleTable.rows.head? = some row → ∃ c a, row.get? "a" = some c ∧ IdOf c a :=
  ⟨by decide, by simp [sampleTable], fun row h => ⟨.num 2, 2, by
    simp only [sampleTable, List.head?_cons, Option.some.injEq] at h
    subst h
    decide, .inl ⟨2, rfl, truncates_int 2⟩⟩⟩

/-- C38: extraction fails only if the table is empty or some row does not hold two numbers. -/
theorem C38_only_failures (t : Table) (src dst : String) (zero : Bool) (hne : t.rows ≠ [])
    (h : ∀ row ∈ t.rows, (∃ q, row.get? src = some (.num q)) ∧ ∃ q, row.get? dst = some (.num q)) :
    ∃ r, extractNodesEdges t src dst zero = .ok r := by
  have : ∃ links, Links t src dst zero links ∧ links ≠ [] := by
    have key : ∀ rows : List (Dict String Cell),
        (∀ row ∈ rows, (∃ q, row.get? src = some (.num q)) ∧ ∃ q, row.get? dst = some (.num q)) →
        ∃ links, List.Forall₂ (fun row l => rowIds src dst zero row = .ok l) rows links := by
      intro rows
      induction rows with
      | nil => intro _; exact ⟨[], .nil⟩
      | cons row rows ih =>
        intro h
        obtain ⟨ls, hls⟩ := ih fun r hr => h r (by simp [hr])
        obtain ⟨⟨p, hp⟩, q, hq⟩ := h row (by simp)
        exact ⟨_ :: ls, .cons (by
          unfold rowIds
          rw [Dict.getItem_eq, hp, Dict.getItem_eq, hq]
          rfl) hls⟩
    obtain ⟨links, hl⟩ := key t.rows h
    refine ⟨links, (links_iff _ _ _ _ _).mpr hl, ?_⟩
    rintro rfl
    cases hr : t.rows with
    | nil => exact hne hr
    | cons r rs => rw [hr] at hl; cases hl
  obtain ⟨links, hl, hne'⟩ := this
  obtain ⟨nodes, edges, h, -⟩ := C37_extraction t src dst zero links hl hne'
  exact ⟨_, h⟩

/-- C38: `read_csv` with its documented default `feature_cols=None` never returns: `TypeError` on every
table that can be read. -/
theorem C38_default_features (t : Table) (src dst : String) (zero : Bool) :
    (∀ b, readCsv (some t) src dst none zero ≠ .ok b) ∧
    (∀ r, extractNodesEdges t src dst zero = .ok r →
      readCsv (some t) src dst none zero = .error .typeError) := by
  unfold readCsv
  cases h : extractNodesEdges t src dst zero with
  | error e => simp [h, bind, Except.bind]
  | ok r => simp [h, bind, Except.bind]

example : ∃ r, extractNodesEdges sampleTable "a" "b" false = .ok r := by
  obtain ⟨nodes, edges, h, -⟩ := C37_extraction _ _ _ _ _ sampleTable_links (by simp)
  exact ⟨_, h⟩

/-- C38: a missing file is `FileNotFoundError`. -/
theorem C38_missing_file (src dst : String) (fc) (zero : Bool) :
    readCsv none src dst fc zero = .error .fileNotFoundError ∧
    readTntp none src dst zero = .error .fileNotFoundError := ⟨rfl, rfl⟩

/-- C38: a tntp file without the `~` or the `;` column is a `KeyError`. -/
theorem C38_tntp_markers (t : Table) (src dst : String) (zero : Bool)
    (h : "~" ∉ t.cols.map pyStrip ∨ ";" ∉ t.cols.map pyStrip) :
    readTntp (some t) src dst zero = .error .keyError := by
  have : (t.rename pyStrip).drop ["~", ";"] = .error .keyError := by
    unfold Table.drop
    rw [if_neg]
    simp only [List.all_cons, List.all_nil, Bool.and_true, Bool.and_eq_true,
      Table.rename]
    rintro ⟨h1, h2⟩
    exact h.elim (fun h => h (of_decide_eq_true h1)) (fun h => h (of_decide_eq_true h2))
  unfold readTntp
  simp only [this, bind, Except.bind]

/-! ## C39: features of the edges -/

/-- The features of every edge are those of the row that introduced it: the columns `fc` of that row,
and nothing else. -/
def OwnRowFeatures (t : Table) (links : List Edge) (fc : List String) (ef : EdgeFeatures) : Prop :=
  ∀ i row e, t.rows[i]? = some row → links[i]? = some e → e ∉ links.take i → e.swap ∉ links.take i →
    ∃ f, ef.get? e = some f ∧ ∀ c, f.get? c = if c ∈ fc then row.get? c else none

private theorem rowFeatures_ok {t : Table} {fc : List String} {i : ℕ} {row : Dict String Cell}
    (hi : t.rows[i]? = some row) (hfc : ∀ c ∈ fc, c ∈ t.cols) :
    ∃ f, rowFeatures t fc i = .ok f ∧ ∀ c, f.get? c = if c ∈ fc then row.get? c else none := by
  have hrow : row ∈ t.rows := List.mem_of_getElem? hi
  have hv : ∀ c ∈ fc, ∃ v, row.get? c = some v := by
    intro c hc
    cases hg : row.get? c with
    | some v => exact ⟨v, rfl⟩
    | none => exact absurd (hfc c hc) ((mem_cols hrow c).mp hg)
  have hm : (fc.mapM fun c => (do
      let v ← Dict.getItem row c
      pure (c, v) : Py (String × Cell))) = .ok (fc.map fun c => (c, (row.get? c).getD (.num 0))) := by
    apply mapM_ok
    intro c hc
    obtain ⟨v, hv⟩ := hv c hc
    rw [Dict.getItem_eq, hv]
    rfl
  unfold rowFeatures
  rw [hi]
  simp only
  rw [hm]
  refine ⟨_, rfl, fun c => ?_⟩
  split_ifs with hc
  · obtain ⟨v, hv⟩ := hv c hc
    rw [hv, Dict.get?_ofPairs]
    -- the last pair with key `c`
    have key : ∀ l : List String, c ∈ l → ∃ pre post,
        (l.map fun c => (c, (row.get? c).getD (.num 0))) = pre ++ (c, v) :: post ∧
        c ∉ post.map Prod.fst := by
      intro l
      induction l with
      | nil => simp
      | cons x l ih =>
        intro h
        by_cases hcl : c ∈ l
        · obtain ⟨pre, post, h1, h2⟩ := ih hcl
          exact ⟨_ :: pre, post, by rw [List.map_cons, h1]; rfl, h2⟩
        · have hx : c = x := (List.mem_cons.mp h).resolve_right hcl
          subst hx
          refine ⟨[], _, by rw [List.map_cons, hv]; rfl, ?_⟩
          simpa using hcl
    exact key fc hc
  · rw [Dict.get?_eq_none, Dict.mem_keys_ofPairs]
    simpa using hc

private theorem positional {t : Table} {fc : List String} {edges : List Edge} {ef : EdgeFeatures}
    (hs : StrictlySorted edges) (hne : fc ≠ []) (hfc : ∀ c ∈ fc, c ∈ t.cols)
    (h2 : edgeFeaturesOf t fc edges = .ok ef) (k : ℕ) (e : Edge) (he : edges[k]? = some e) :
    ∃ row f, t.rows[k]? = some row ∧ ef.get? e = some f ∧
      ∀ c, f.get? c = if c ∈ fc then row.get? c else none := by
  unfold edgeFeaturesOf at h2
  rw [if_pos (List.length_pos_iff.mpr hne)] at h2
  unfold positionalFeatures at h2
  obtain ⟨fs, h3, h4⟩ := bind_ok h2
  cases h4
  have h5 := mapM_eq_ok h3
  have hkeys : fs.map Prod.fst = edges := by
    have : ∀ (l : List (Edge × ℕ)) (r : List (Edge × Dict String Cell)),
        List.Forall₂ (fun ei p => (do
          let f ← rowFeatures t fc ei.2
          pure (ei.1, f) : Py _) = .ok p) l r → r.map Prod.fst = l.map Prod.fst := by
      intro l r hf
      induction hf with
      | nil => rfl
      | cons ha _ ih =>
        obtain ⟨f, -, hb⟩ := bind_ok ha
        cases hb
        simp [ih]
    rw [this _ _ h5, List.zipIdx_map_fst]
  rw [Dict.ofPairs_of_nodup (by rw [hkeys]; exact hs.nodup)]
  have hk : k < edges.length := by
    by_contra hk
    rw [List.getElem?_eq_none (by omega)] at he
    cases he
  have hlen : fs.length = edges.length := by rw [← hkeys]; simp
  have h6 := (List.forall₂_iff_get.mp h5).2 k (by simpa using hk) (by omega)
  simp only [List.get_eq_getElem, List.getElem_zipIdx, Nat.zero_add] at h6
  obtain ⟨f, h7, h8⟩ := bind_ok h6
  have hek : edges[k] = e := by
    rw [List.getElem?_eq_getElem hk] at he
    exact Option.some.inj he
  cases hr : t.rows[k]? with
  | none =>
    unfold rowFeatures at h7
    rw [hr] at h7
    cases h7
  | some row =>
    obtain ⟨f', h9, h10⟩ := rowFeatures_ok hr hfc
    rw [h7] at h9
    cases h9
    refine ⟨row, f, rfl, ?_, h10⟩
    apply Dict.get?_of_mem (by unfold Dict.keys; rw [hkeys]; exact hs.nodup)
    have : fs[k]'(by omega) = (e, f) := by
      rw [← hek]
      exact (Except.ok.inj h8).symm
    rw [← this]
    exact List.getElem_mem _

private theorem readCsv_parts {t : Table} {src dst : String} {fc : List String} {zero : Bool}
    {b : SCBuilder} (h : readCsv (some t) src dst (some fc) zero = .ok b) :
    ∃ links, links ≠ [] ∧ Links t src dst zero links ∧ StrictlySorted b.edges ∧
      b.edges = sortedPairs (links.foldl addLink ([], [])).2 ∧
      edgeFeaturesOf t fc b.edges = .ok b.edgeFeatures := by
  have hx := (C37_read_csv t src dst (some fc) zero b h).1
  obtain ⟨links, hlne, hl⟩ := C37_only_links t src dst zero _ hx
  obtain ⟨m, -, h1⟩ := extract_eq hl hlne
  rw [hx] at h1
  have hbe : b.edges = sortedPairs (links.foldl addLink ([], [])).2 :=
    congrArg Prod.snd (Except.ok.inj h1)
  refine ⟨links, hlne, hl, ?_, hbe, ?_⟩
  · rw [hbe]
    exact sortedPairs_strict (addLink_noRepeats links _ (by simp [NoRepeats])).nodup
  unfold readCsv at h
  obtain ⟨⟨nodes, edges⟩, h1, h⟩ := bind_ok h
  obtain ⟨ef, h2, h⟩ := bind_ok h
  cases h
  exact h2

/-- C39, what `read_csv` really does: the `k`-th edge of the sorted list gets the features of the
`k`-th row. -/
theorem C39_positional (t : Table) (src dst : String) (fc : List String) (zero : Bool) (b : SCBuilder)
    (hne : fc ≠ []) (hfc : ∀ c ∈ fc, c ∈ t.cols) (h : readCsv (some t) src dst (some fc) zero = .ok b)
    (k : ℕ) (e : Edge) (he : b.edges[k]? = some e) :
    ∃ row f, t.rows[k]? = some row ∧ b.edgeFeatures.get? e = some f ∧
      ∀ c, f.get? c = if c ∈ fc then row.get? c else none := by
  obtain ⟨links, -, -, hs, -, hef⟩ := readCsv_parts h
  exact positional hs hne hfc hef k e he

/-- the rows that introduce an edge come first, in sorted order -/
def SortedFirst (links : List Edge) : Prop :=
  ∃ edges rest, links = edges ++ rest ∧ StrictlySorted edges ∧ NoRepeats edges ∧
    ∀ l ∈ rest, l ∈ edges ∨ l.swap ∈ edges

private theorem addLink_snd (links : List Edge) (st : List Int × List Edge)
    (h : ∀ l ∈ links, l ∈ st.2 ∨ l.swap ∈ st.2) : (links.foldl addLink st).2 = st.2 := by
  induction links generalizing st with
  | nil => rfl
  | cons l links ih =>
    have h1 : (addLink st l).2 = st.2 := by simp only [addLink, if_pos (h l (by simp))]
    rw [List.foldl_cons, ih _ fun x hx => by rw [h1]; exact h x (by simp [hx]), h1]

private theorem addLink_append (links : List Edge) (st : List Int × List Edge)
    (h : NoRepeats (st.2 ++ links)) : (links.foldl addLink st).2 = st.2 ++ links := by
  induction links generalizing st with
  | nil => simp
  | cons l links ih =>
    have hl : ¬ (l ∈ st.2 ∨ l.swap ∈ st.2) := by
      have hp := (List.pairwise_append.mp h).2.2
      rintro (hm | hm)
      · exact (hp _ hm l (by simp)).1 rfl
      · exact (hp _ hm l (by simp)).2 rfl
    have h1 : (addLink st l).2 = st.2 ++ [l] := by simp only [addLink, if_neg hl]
    rw [List.foldl_cons, ih _ (by rw [h1]; simpa using h), h1]
    simp

private theorem sortedFirst_edges {links : List Edge} (h : SortedFirst links) :
    (sortedPairs (links.foldl addLink ([], [])).2) =
      links.take (sortedPairs (links.foldl addLink ([], [])).2).length := by
  obtain ⟨edges, rest, rfl, hs, hn, hr⟩ := h
  have : ((edges ++ rest).foldl addLink ([], [])).2 = edges := by
    rw [List.foldl_append]
    have h1 := addLink_append edges ([], []) (by simpa using hn)
    rw [addLink_snd rest _ (by rw [h1]; simpa using hr), h1]
    rfl
  rw [this, sortedPairs_of_sorted hs]
  simp

private theorem own_row {t : Table} {links : List Edge} {fc : List String} {edges : List Edge}
    {ef : EdgeFeatures} (hbe : edges = sortedPairs (links.foldl addLink ([], [])).2)
    (hpre : edges = links.take edges.length)
    (hpos : ∀ (k : ℕ) (e : Edge), edges[k]? = some e → ∃ row f, t.rows[k]? = some row ∧
      ef.get? e = some f ∧ ∀ c, f.get? c = if c ∈ fc then row.get? c else none) :
    OwnRowFeatures t links fc ef := by
  intro i row e hrow hi h1 h2
  have hfs : FirstSeen links e := by
    have hlt : i < links.length := by
      by_contra hk
      rw [List.getElem?_eq_none (by omega)] at hi
      cases hi
    rw [List.getElem?_eq_getElem hlt] at hi
    refine ⟨links.take i, links.drop (i + 1), ?_, h1, h2⟩
    rw [← Option.some.inj hi]
    simp
  have hm : e ∈ edges := by rw [hbe, mem_extracted]; exact hfs
  -- its first position in `links` is within the prefix, hence `i`
  obtain ⟨j, hj, hje⟩ := List.getElem_of_mem hm
  have hlj : links[j]? = some e := by
    have : (links.take edges.length)[j]? = some e := by
      rw [← hpre, List.getElem?_eq_getElem hj, hje]
    rw [List.getElem?_take] at this
    rwa [if_pos hj] at this
  have hij : i = j := by
    rcases lt_trichotomy i j with hlt | heq | hlt
    · -- both within the prefix, which has no repetition
      exfalso
      have hnd : edges.Nodup := by rw [hbe]; exact (noRepeats_extracted links).nodup
      have hei : edges[i]? = some e := by
        rw [hpre, List.getElem?_take, if_pos (by omega)]
        exact hi
      rw [List.getElem?_eq_getElem (by omega)] at hei
      have := (List.Nodup.getElem_inj_iff hnd (hi := by omega) (hj := hj)).mp
        ((Option.some.inj hei).trans hje.symm)
      omega
    · exact heq
    · exfalso
      apply h1
      have : (links.take i)[j]? = some e := by rw [List.getElem?_take, if_pos hlt]; exact hlj
      exact List.mem_of_getElem? this
  subst hij
  obtain ⟨row', f, hr', hf⟩ := hpos i e (by rw [List.getElem?_eq_getElem hj, hje])
  rw [hrow] at hr'
  cases hr'
  exact ⟨f, hf⟩

/-- C39 (partial): if the rows that introduce an edge come first and in sorted order - in particular
if the rows are strictly sorted without repetition - `read_csv` gives every edge the features of its
own row.  Missing: all other row orders, for which the claim is false (`C39_converse`,
`C39_counterexample`). -/
theorem C39_read_csv_partial (t : Table) (src dst : String) (fc : List String) (zero : Bool)
    (b : SCBuilder) (links : List Edge) (hl : Links t src dst zero links) (hs : SortedFirst links)
    (hne : fc ≠ []) (hfc : ∀ c ∈ fc, c ∈ t.cols)
    (h : readCsv (some t) src dst (some fc) zero = .ok b) :
    OwnRowFeatures t links fc b.edgeFeatures := by
  obtain ⟨links', -, hl', hss, hbe, hef⟩ := readCsv_parts h
  have : links' = links := by
    rw [links_iff] at hl hl'
    have key : ∀ (rows : List (Dict String Cell)) (a b : List Edge),
        List.Forall₂ (fun row l => rowIds src dst zero row = .ok l) rows a →
        List.Forall₂ (fun row l => rowIds src dst zero row = .ok l) rows b → a = b := by
      intro rows
      induction rows with
      | nil => intro a b ha hb; cases ha; cases hb; rfl
      | cons r rows ih =>
        intro a b ha hb
        cases ha with
        | cons h1 h2 =>
          cases hb with
          | cons h3 h4 =>
            rw [h1] at h3
            rw [Except.ok.inj h3, ih _ _ h2 h4]
    exact key _ _ _ hl' hl
  subst this
  have hpre : b.edges = links'.take b.edges.length := by
    rw [hbe]
    exact sortedFirst_edges hs
  exact own_row hbe hpre fun k e he => positional hss hne hfc hef k e he

/-- strictly sorted rows without repetition are sorted first -/
theorem sortedFirst_of_sorted {links : List Edge} (h : StrictlySorted links) (hn : NoRepeats links) :
    SortedFirst links := ⟨links, [], by simp, h, hn, by simp⟩

private theorem extracted_length (links : List Edge) :
    (sortedPairs (links.foldl addLink ([], [])).2).length ≤ links.length := by
  apply List.Subperm.length_le
  apply (noRepeats_extracted links).nodup.subperm
  intro e he
  obtain ⟨pre, post, h, -⟩ := (mem_extracted links e).mp he
  rw [h]
  simp

private theorem edgeFeaturesOf_total {t : Table} {fc : List String} {edges : List Edge}
    (hlen : edges.length ≤ t.rows.length) (hfc : ∀ c ∈ fc, c ∈ t.cols) :
    ∃ ef, edgeFeaturesOf t fc edges = .ok ef := by
  unfold edgeFeaturesOf
  split_ifs
  · have hall : ∀ ei ∈ edges.zipIdx, ∃ p, (do
        let f ← rowFeatures t fc ei.2
        pure (ei.1, f) : Py (Edge × Dict String Cell)) = .ok p := by
      rintro ⟨e, i⟩ hei
      have hi : i < edges.length := by
        have := List.snd_lt_of_mem_zipIdx hei
        simpa using this
      obtain ⟨f, hf, -⟩ := rowFeatures_ok (i := i) (List.getElem?_eq_getElem (by omega)) hfc
      exact ⟨(e, f), by rw [hf]; rfl⟩
    unfold positionalFeatures
    cases hm : edges.zipIdx.mapM fun ei => (do
        let f ← rowFeatures t fc ei.2
        pure (ei.1, f) : Py (Edge × Dict String Cell)) with
    | error e =>
      obtain ⟨a, ha, he⟩ := mapM_error hm
      obtain ⟨p, hp⟩ := hall a ha
      rw [hp] at he
      cases he
    | ok fs => exact ⟨Dict.ofPairs fs, rfl⟩
  · exact ⟨[], rfl⟩

/-- C37, C39: `read_csv` returns on every non-empty table of links that has the feature columns. -/
theorem C37_read_csv_returns (t : Table) (src dst : String) (fc : List String) (zero : Bool)
    (links : List Edge) (hl : Links t src dst zero links) (hne : links ≠ [])
    (hfc : ∀ c ∈ fc, c ∈ t.cols) : ∃ b, readCsv (some t) src dst (some fc) zero = .ok b := by
  obtain ⟨m, -, h⟩ := extract_eq hl hne
  obtain ⟨ef, he⟩ := edgeFeaturesOf_total (t := t) (fc := fc)
    (edges := sortedPairs (links.foldl addLink ([], [])).2)
    (by rw [List.Forall₂.length_eq hl]; exact extracted_length links) hfc
  exact ⟨_, by unfold readCsv; simp only [h, he, bind, Except.bind]; rfl⟩

/-- the feature values tell the rows apart -/
def ColumnDistinct (t : Table) (c : String) : Prop :=
  ∀ (i j : ℕ) (r r' : Dict String Cell), t.rows[i]? = some r → t.rows[j]? = some r' →
    r.get? c = r'.get? c → i = j

private theorem first_index {links : List Edge} {e : Edge} (h : FirstSeen links e) :
    ∃ i, links[i]? = some e ∧ e ∉ links.take i ∧ e.swap ∉ links.take i := by
  obtain ⟨pre, post, rfl, h1, h2⟩ := h
  exact ⟨pre.length, by simp, by simpa using h1, by simpa using h2⟩

/-- C39, converse: whenever some feature column tells the rows apart, the condition of
`C39_read_csv_partial` is also necessary. -/
theorem C39_converse (t : Table) (src dst : String) (fc : List String) (zero : Bool)
    (b : SCBuilder) (links : List Edge) (hl : Links t src dst zero links)
    (hfc : ∀ c ∈ fc, c ∈ t.cols) (c : String) (hc : c ∈ fc) (hd : ColumnDistinct t c)
    (h : readCsv (some t) src dst (some fc) zero = .ok b)
    (hown : OwnRowFeatures t links fc b.edgeFeatures) : SortedFirst links := by
  have hne : fc ≠ [] := List.ne_nil_of_mem hc
  have hx := (C37_read_csv t src dst (some fc) zero b h).1
  have hlne : links ≠ [] := by
    rintro rfl
    have hr : t.rows = [] := by cases hrows : t.rows with
      | nil => rfl
      | cons r rs => unfold Links at hl; rw [hrows] at hl; cases hl
    rw [(C38_empty t src dst zero hr).1] at hx
    cases hx
  obtain ⟨nodes, edges, h1, hs, hn, hm, hcov, -⟩ := C37_extraction t src dst zero links hl hlne
  rw [hx] at h1
  obtain ⟨rfl, rfl⟩ := Prod.mk.inj (Except.ok.inj h1)
  have hlen := List.Forall₂.length_eq hl
  have key : ∀ k (hk : k < b.edges.length), links[k]? = some b.edges[k] := by
    intro k hk
    obtain ⟨row, f, hrow, hf, hfv⟩ := C39_positional t src dst fc zero b hne hfc h k _
      (List.getElem?_eq_getElem hk)
    obtain ⟨i, hi, hi1, hi2⟩ := first_index ((hm _).mp (List.getElem_mem hk))
    have hilt : i < links.length := by
      by_contra hh
      rw [List.getElem?_eq_none (by omega)] at hi
      cases hi
    obtain ⟨f', hf', hfv'⟩ := hown i (t.rows[i]'(by omega)) _
      (List.getElem?_eq_getElem (by omega)) hi hi1 hi2
    rw [hf] at hf'
    cases hf'
    have e1 := hfv c
    rw [hfv' c, if_pos hc, if_pos hc] at e1
    have := hd i k _ _ (List.getElem?_eq_getElem (by omega)) hrow e1
    rwa [this] at hi
  have hle : b.edges.length ≤ links.length := by
    by_contra hh
    have := key links.length (by omega)
    rw [List.getElem?_eq_none (le_refl _)] at this
    cases this
  have hpre : b.edges = links.take b.edges.length := by
    apply List.ext_getElem?
    intro k
    rw [List.getElem?_take]
    split_ifs with hk
    · rw [key k hk, List.getElem?_eq_getElem hk]
    · rw [List.getElem?_eq_none (by omega)]
  exact ⟨b.edges, links.drop b.edges.length, by rw (occs := [1]) [hpre]; simp, hs, hn,
    fun l hl => hcov l (List.mem_of_mem_drop hl)⟩

/-- C39 is false in general: in `sampleTable` the two edges get each other's neighbouring rows. -/
theorem C39_counterexample : ∃ (t : Table) (links : List Edge) (b : SCBuilder),
    Links t "a" "b" false links ∧ readCsv (some t) "a" "b" (some ["w"]) false = .ok b ∧
    "w" ∈ t.cols ∧ ¬ OwnRowFeatures t links ["w"] b.edgeFeatures := by
  obtain ⟨b, hb⟩ := C37_read_csv_returns sampleTable "a" "b" ["w"] false _ sampleTable_links
    (by simp) (by decide)
  refine ⟨sampleTable, _, b, sampleTable_links, hb, by decide, fun hown => ?_⟩
  obtain ⟨nodes, edges, h1, hs, -, hm, -⟩ := C37_extraction _ _ _ _ _ sampleTable_links (by simp)
  rw [(C37_read_csv _ _ _ _ _ _ hb).1] at h1
  obtain ⟨-, rfl⟩ := Prod.mk.inj (Except.ok.inj h1)
  obtain ⟨f, hf, hfv⟩ := hown 2 _ (0, 1) rfl rfl (by decide) (by decide)
  have h0 : b.edges[0]? = some (0, 1) := by
    have hmem : ((0 : Int), (1 : Int)) ∈ b.edges :=
      (hm _).mpr ⟨[(1, 2), (2, 1)], [], rfl, by decide, by decide⟩
    have hsub : ∀ e ∈ b.edges, e = (0, 1) ∨ e = (1, 2) ∨ e = (2, 1) := by
      intro e he
      obtain ⟨pre, post, h, -⟩ := (hm _).mp he
      have : e ∈ [((1 : Int), (2 : Int)), (2, 1), (0, 1)] := by rw [h]; simp
      simp only [List.mem_cons, List.not_mem_nil, or_false] at this
      tauto
    cases hbe : b.edges with
    | nil => rw [hbe] at hmem; simp at hmem
    | cons x xs =>
      rw [hbe] at hmem hsub hs
      rcases List.mem_cons.mp hmem with h | h
      · simp [h]
      · have := (List.pairwise_cons.mp hs).1 _ h
        rcases hsub x (by simp) with rfl | rfl | rfl <;> simp at this
  obtain ⟨row, f', hrow, hf', hfv'⟩ := C39_positional sampleTable "a" "b" ["w"] false b (by simp)
    (by decide) hb 0 _ h0
  rw [hf] at hf'
  cases hf'
  cases hrow
  have e1 := hfv "w"
  rw [hfv' "w"] at e1
  revert e1
  decide

/-- the hypotheses of the partial theorem are met by sorted rows followed by repetitions -/
example : SortedFirst [(0, 1), (1, 2), (1, 0), (2, 1)] :=
  ⟨[(0, 1), (1, 2)], [(1, 0), (2, 1)], rfl, by decide, by decide, by decide⟩

/-- C39 (partial) for `read_tntp`: the feature columns are all columns of the file, stripped of white
space, other than the link columns and the two markers.  Missing: unsorted rows, as for `read_csv`. -/
theorem C39_read_tntp_partial (t : Table) (src dst : String) (zero : Bool) (b : SCBuilder)
    (links : List Edge) (hsrc : src ≠ "~" ∧ src ≠ ";") (hdst : dst ≠ "~" ∧ dst ≠ ";")
    (hl : Links (t.rename pyStrip) src dst zero links) (hs : SortedFirst links)
    (hfc : ∃ c ∈ t.cols.map pyStrip, c ∉ ["~", ";", src, dst])
    (h : readTntp (some t) src dst zero = .ok b) :
    OwnRowFeatures (t.rename pyStrip) links
      ((t.cols.map pyStrip).filter fun c => decide (c ∉ ["~", ";", src, dst])) b.edgeFeatures := by
  have hx := (C37_read_tntp t src dst zero b hsrc hdst h).1
  unfold readTntp at h
  obtain ⟨df, h0, h⟩ := bind_ok h
  obtain ⟨⟨nodes, edges⟩, h1, h⟩ := bind_ok h
  obtain ⟨ef, h2, h⟩ := bind_ok h
  cases h
  simp only at hx ⊢
  have hlne : links ≠ [] := by
    rintro rfl
    have hr : (t.rename pyStrip).rows = [] := by cases hrows : (t.rename pyStrip).rows with
      | nil => rfl
      | cons r rs => unfold Links at hl; rw [hrows] at hl; cases hl
    rw [(C38_empty _ src dst zero hr).1] at hx
    cases hx
  obtain ⟨m, -, h3⟩ := extract_eq hl hlne
  rw [hx] at h3
  have hbe : edges = sortedPairs (links.foldl addLink ([], [])).2 :=
    congrArg Prod.snd (Except.ok.inj h3)
  have hss : StrictlySorted edges := by
    rw [hbe]
    exact sortedPairs_strict (addLink_noRepeats links _ (by simp [NoRepeats])).nodup
  have hpre : edges = links.take edges.length := by
    rw [hbe]
    exact sortedFirst_edges hs
  unfold Table.drop at h0
  split_ifs at h0 with hc
  have hdf := Except.ok.inj h0
  have hcols : df.cols.filter (fun c => decide (c ≠ src ∧ c ≠ dst)) =
      (t.cols.map pyStrip).filter fun c => decide (c ∉ ["~", ";", src, dst]) := by
    rw [← hdf]
    simp only [List.filter_filter, Table.rename]
    apply List.filter_congr
    intro c _
    simp only [List.mem_cons, List.not_mem_nil, or_false, not_or]
    by_cases a1 : c = "~" <;> by_cases a2 : c = ";" <;> by_cases a3 : c = src <;>
      by_cases a4 : c = dst <;> simp [a1, a2, a3, a4]
  rw [← hcols]
  have hrows : ∀ (k : ℕ) (row' : Dict String Cell), df.rows[k]? = some row' → ∃ row, (t.rename pyStrip).rows[k]? = some row ∧
      row' = List.filter (α := String × Cell) (p := fun kv => decide (kv.1 ∉ ["~", ";"])) row := by
    intro k row' hk
    rw [← hdf] at hk
    simp only [List.getElem?_map, Option.map_eq_some_iff] at hk
    obtain ⟨row, hr, rfl⟩ := hk
    exact ⟨row, hr, rfl⟩
  apply own_row hbe hpre
  intro k e he
  have hne : df.cols.filter (fun c => decide (c ≠ src ∧ c ≠ dst)) ≠ [] := by
    rw [hcols]
    obtain ⟨c, hc1, hc2⟩ := hfc
    exact List.ne_nil_of_mem (List.mem_filter.mpr ⟨hc1, decide_eq_true hc2⟩)
  obtain ⟨row', f, hr, hf, hv⟩ := positional hss hne (fun c hc => (List.mem_filter.mp hc).1) h2 k e he
  obtain ⟨row, hr2, rfl⟩ := hrows k row' hr
  refine ⟨row, f, hr2, hf, fun c => ?_⟩
  rw [hv c]
  split_ifs with hcm
  · rw [hcols, List.mem_filter] at hcm
    have := of_decide_eq_true hcm.2
    simp only [List.mem_cons, List.not_mem_nil, or_false, not_or] at this
    exact get?_filter row (fun k => decide (k ∉ ["~", ";"])) c (by simp [this])
  · rfl

end Pytspl
