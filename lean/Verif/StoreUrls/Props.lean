import Verif.StoreUrls.Told

/-!
# C86: documents and graphs are read from their own places in the object storage
-/
namespace Verif.StoreUrls

def docs : List Char := "trusted-documents".toList
def branchDir : List Char := "branch".toList
def graphs : List Char := "graphs".toList
def versionDir : List Char := "version".toList

theorem docs_clean : Clean docs := ⟨by
  intro c hc
  have : ∀ c ∈ docs, ('a'.toNat ≤ c.toNat ∧ c.toNat ≤ 'z'.toNat) ∨ c = '-' := by decide +kernel
  rcases this c hc with h | h
  · exact Or.inl h
  · exact Or.inr (Or.inr (Or.inr (Or.inl h))), by decide +kernel⟩

theorem word_clean (w : List Char) (h : ∀ c ∈ w, 'a'.toNat ≤ c.toNat ∧ c.toNat ≤ 'z'.toNat) (h1 : w ≠ ['.'] ∧ w ≠ ['.', '.']) : Clean w :=
  ⟨fun c hc => Or.inl (h c hc), h1⟩

theorem branch_clean : Clean branchDir := word_clean _ (by decide +kernel) (by decide +kernel)
theorem graphs_clean : Clean graphs := word_clean _ (by decide +kernel) (by decide +kernel)
theorem version_clean : Clean versionDir := word_clean _ (by decide +kernel) (by decide +kernel)

/-- A document whose name and client are segments is read from under its client, in the gateway's branch. -/
theorem C86_inside_partial (branch client doc : List Char) (hb : Clean branch) (hc : Plain client) (hd : Plain doc) :
    documentPath branch client doc = ["trusted-documents".toList, "branch".toList, branch, encode client, encode doc] ∧
      '/' ∉ encode client ∧ '/' ∉ encode doc := by
  have hbp := clean_plain hb
  have hdp := clean_plain docs_clean
  have hbr := clean_plain branch_clean
  refine ⟨?_, encode_noSlash (fun h => (hc.chars _ h).1 rfl), encode_noSlash (fun h => (hd.chars _ h).1 rfl)⟩
  have e : "trusted-documents/branch/".toList ++ branch ++ '/' :: client ++ '/' :: doc =
      docs ++ '/' :: (branchDir ++ '/' :: (branch ++ '/' :: (client ++ '/' :: doc))) := by
    have : "trusted-documents/branch/".toList = docs ++ '/' :: (branchDir ++ ['/']) := by decide +kernel
    rw [this]
    simp
  unfold documentPath setPath
  rw [e, strip_kept]
  · have hds : dropSlash (docs ++ '/' :: (branchDir ++ '/' :: (branch ++ '/' :: (client ++ '/' :: doc)))) =
        docs ++ '/' :: (branchDir ++ '/' :: (branch ++ '/' :: (client ++ '/' :: doc))) := by
      have : docs = 't' :: "rusted-documents".toList := by decide +kernel
      rw [this]
      rfl
    rw [hds, segments_append _ _ (plain_noSlash hdp), segments_append _ _ (plain_noSlash hbr), segments_append _ _ (plain_noSlash hbp),
      segments_append _ _ (plain_noSlash hc), segments_plain _ (plain_noSlash hd), walk_plain]
    · simp only [List.nil_append, List.map_cons, List.map_nil, clean_encode docs_clean, clean_encode branch_clean, clean_encode hb]
      rfl
    · intro s hs
      simp only [List.mem_cons, List.not_mem_nil, or_false] at hs
      rcases hs with rfl | rfl | rfl | rfl | rfl
      · exact plain_dots hdp
      · exact plain_dots hbr
      · exact plain_dots hbp
      · exact plain_dots hc
      · exact plain_dots hd
  · intro c hm
    simp only [List.mem_append, List.mem_cons] at hm
    rcases hm with h | h | h | h | h | h | h | h | h
    · exact plain_kept hdp c h
    · rw [h]; decide
    · exact plain_kept hbr c h
    · rw [h]; decide
    · exact plain_kept hbp c h
    · rw [h]; decide
    · exact plain_kept hc c h
    · rw [h]; decide
    · exact plain_kept hd c h

/-- A name without percent signs is read by the storage as it was. -/
theorem C86_read_partial (s : List Char) (h : '%' ∉ s) : points (unescape (encode s)) = s.map Char.toNat := points_encode s h

/-- Documents of other branches, clients or names are at other places, where the names are segments and have no percent signs. -/
theorem C86_distinct_partial (b c d b' c' d' : List Char) (hb : Clean b) (hc : Plain c) (hd : Plain d) (hb' : Clean b') (hc' : Plain c') (hd' : Plain d')
    (pc : '%' ∉ c) (pd : '%' ∉ d) (pc' : '%' ∉ c') (pd' : '%' ∉ d')
    (h : render (documentPath b c d) = render (documentPath b' c' d')) : b = b' ∧ c = c' ∧ d = d' := by
  obtain ⟨e1, s1, s2⟩ := C86_inside_partial b c d hb hc hd
  obtain ⟨e2, s3, s4⟩ := C86_inside_partial b' c' d' hb' hc' hd'
  rw [e1, e2] at h
  have ns : ∀ s, Clean s → '/' ∉ s := fun s hs hm => ((clean_plain hs).chars _ hm).1 rfl
  have := render_inj _ _ ?_ ?_ h
  · simp only [List.cons.injEq, true_and, and_true] at this
    exact ⟨this.1, encode_inj pc pc' this.2.1, encode_inj pd pd' this.2.2⟩
  all_goals
    intro s hs
    simp only [List.mem_cons, List.not_mem_nil, or_false] at hs
    rcases hs with rfl | rfl | rfl | rfl | rfl
    · exact ns _ docs_clean
    · exact ns _ branch_clean
    · apply ns; assumption
    · assumption
    · assumption

/-- The graph, branch and version a reference names. -/
def placeOf : Ref → List (List Char)
  | .production slug => ["graphs".toList, slug]
  | .latest slug branch => ["graphs".toList, slug, "branch".toList, form branch]
  | .version slug branch id => ["graphs".toList, slug, "branch".toList, form branch, "version".toList, id]

/-- References with identifiers as names of graphs, and names of branches which are not `.` or `..`. -/
inductive Usual : Ref → Prop where
  | production {slug} : Clean slug → Usual (.production slug)
  | latest {slug branch} : Clean slug → (∀ x ∈ branch, x < 256) → branch ≠ [0x2E] → branch ≠ [0x2E, 0x2E] → Usual (.latest slug branch)
  | version {slug branch id} : Clean slug → (∀ x ∈ branch, x < 256) → branch ≠ [0x2E] → branch ≠ [0x2E, 0x2E] → Clean id →
      Usual (.version slug branch id)

theorem form_noSlash {b : List Nat} (h : ∀ x ∈ b, x < 256) : NoSlash (form b) := by
  intro c hc
  obtain ⟨h1, h2, _⟩ := form_chars h c hc
  simp [isSlash, h1, h2]

theorem form_kept {b : List Nat} (h : ∀ x ∈ b, x < 256) : Kept (form b) := by
  intro c hc
  obtain ⟨_, _, h3, h4, h5, _⟩ := form_chars h c hc
  exact ⟨h3, h4, h5⟩

theorem graphs_slash : "/graphs/".toList = '/' :: (graphs ++ ['/']) := by decide +kernel
theorem branch_slash : "/branch/".toList = '/' :: (branchDir ++ ['/']) := by decide +kernel
theorem version_slash : "/version/".toList = '/' :: (versionDir ++ ['/']) := by decide +kernel

/-- A graph is read from the place of its branch, or of its version. -/
theorem C86_graph_partial (r : Ref) (h : Usual r) : graphPath r = placeOf r := by
  have hg := clean_plain graphs_clean
  have hbr := clean_plain branch_clean
  have hv := clean_plain version_clean
  cases h with
  | @production slug hs =>
    have hsp := clean_plain hs
    rw [graphPath, setPath]
    have e : "/graphs/".toList ++ slug = '/' :: (graphs ++ '/' :: slug) := by rw [graphs_slash]; simp
    rw [e, strip_kept]
    · rw [dropSlash, if_pos (by decide), segments_append _ _ (plain_noSlash hg), segments_plain _ (plain_noSlash hsp), walk_plain]
      · simp only [List.nil_append, List.map_cons, List.map_nil, clean_encode graphs_clean, clean_encode hs]
        rfl
      · intro s hm
        simp only [List.mem_cons, List.not_mem_nil, or_false] at hm
        rcases hm with rfl | rfl
        · exact plain_dots hg
        · exact plain_dots hsp
    · intro c hm
      simp only [List.mem_append, List.mem_cons] at hm
      rcases hm with h | h | h | h
      · rw [h]; decide
      · exact plain_kept hg c h
      · rw [h]; decide
      · exact plain_kept hsp c h
  | @latest slug branch hs hx h1 h2 =>
    have hsp := clean_plain hs
    rw [graphPath, setPath]
    have e : "/graphs/".toList ++ slug ++ "/branch/".toList ++ form branch = '/' :: (graphs ++ '/' :: (slug ++ '/' :: (branchDir ++ '/' :: form branch))) := by
      rw [graphs_slash, branch_slash]
      simp
    rw [e, strip_kept]
    · rw [dropSlash, if_pos (by decide), segments_append _ _ (plain_noSlash hg), segments_append _ _ (plain_noSlash hsp),
        segments_append _ _ (plain_noSlash hbr), segments_plain _ (form_noSlash hx), walk_plain]
      · simp only [List.nil_append, List.map_cons, List.map_nil, clean_encode graphs_clean, clean_encode branch_clean, clean_encode hs, form_encode hx]
        rfl
      · intro s hm
        simp only [List.mem_cons, List.not_mem_nil, or_false] at hm
        rcases hm with rfl | rfl | rfl | rfl
        · exact plain_dots hg
        · exact plain_dots hsp
        · exact plain_dots hbr
        · exact form_plain hx h1 h2
    · intro c hm
      simp only [List.mem_append, List.mem_cons] at hm
      rcases hm with h | h | h | h | h | h | h | h
      · rw [h]; decide
      · exact plain_kept hg c h
      · rw [h]; decide
      · exact plain_kept hsp c h
      · rw [h]; decide
      · exact plain_kept hbr c h
      · rw [h]; decide
      · exact form_kept hx c h
  | @version slug branch id hs hx h1 h2 hi =>
    have hsp := clean_plain hs
    have hip := clean_plain hi
    rw [graphPath, setPath]
    have e : "/graphs/".toList ++ slug ++ "/branch/".toList ++ form branch ++ "/version/".toList ++ id =
        '/' :: (graphs ++ '/' :: (slug ++ '/' :: (branchDir ++ '/' :: (form branch ++ '/' :: (versionDir ++ '/' :: id))))) := by
      rw [graphs_slash, branch_slash, version_slash]
      simp
    rw [e, strip_kept]
    · rw [dropSlash, if_pos (by decide), segments_append _ _ (plain_noSlash hg), segments_append _ _ (plain_noSlash hsp),
        segments_append _ _ (plain_noSlash hbr), segments_append _ _ (form_noSlash hx), segments_append _ _ (plain_noSlash hv),
        segments_plain _ (plain_noSlash hip), walk_plain]
      · simp only [List.nil_append, List.map_cons, List.map_nil, clean_encode graphs_clean, clean_encode branch_clean, clean_encode version_clean,
          clean_encode hs, clean_encode hi, form_encode hx]
        rfl
      · intro s hm
        simp only [List.mem_cons, List.not_mem_nil, or_false] at hm
        rcases hm with rfl | rfl | rfl | rfl | rfl | rfl
        · exact plain_dots hg
        · exact plain_dots hsp
        · exact plain_dots hbr
        · exact form_plain hx h1 h2
        · exact plain_dots hv
        · exact plain_dots hip
    · intro c hm
      simp only [List.mem_append, List.mem_cons] at hm
      rcases hm with h | h | h | h | h | h | h | h | h | h | h | h
      · rw [h]; decide
      · exact plain_kept hg c h
      · rw [h]; decide
      · exact plain_kept hsp c h
      · rw [h]; decide
      · exact plain_kept hbr c h
      · rw [h]; decide
      · exact form_kept hx c h
      · rw [h]; decide
      · exact plain_kept hv c h
      · rw [h]; decide
      · exact plain_kept hip c h

theorem placeOf_noSlash {r : Ref} (h : Usual r) : ∀ s ∈ placeOf r, '/' ∉ s := by
  have ns : ∀ s, Clean s → '/' ∉ s := fun s hs hm => ((clean_plain hs).chars _ hm).1 rfl
  have fs : ∀ b : List Nat, (∀ x ∈ b, x < 256) → '/' ∉ form b := fun b hb hm => (form_chars hb _ hm).1 rfl
  intro s hs
  cases h <;> simp only [placeOf, List.mem_cons, List.not_mem_nil, or_false] at hs
  · rcases hs with rfl | rfl
    · exact ns _ graphs_clean
    · apply ns; assumption
  · rcases hs with rfl | rfl | rfl | rfl
    · exact ns _ graphs_clean
    · apply ns; assumption
    · exact ns _ branch_clean
    · apply fs; assumption
  · rcases hs with rfl | rfl | rfl | rfl | rfl | rfl
    · exact ns _ graphs_clean
    · apply ns; assumption
    · exact ns _ branch_clean
    · apply fs; assumption
    · exact ns _ version_clean
    · apply ns; assumption

/-- The name of a branch is read by the storage as it was. -/
theorem C86_branch_read (b : List Nat) (h : ∀ x ∈ b, x < 256) : unescapeForm (form b) = b := unescapeForm_form b h

/-- Other graphs, branches or versions are at other places. -/
theorem C86_graph_distinct_partial (r r' : Ref) (h : Usual r) (h' : Usual r') (e : render (graphPath r) = render (graphPath r')) : r = r' := by
  rw [C86_graph_partial r h, C86_graph_partial r' h'] at e
  have := render_inj _ _ (placeOf_noSlash h) (placeOf_noSlash h') e
  cases h with
  | production _ =>
    cases h' <;> simp only [placeOf, List.cons.injEq, and_true, true_and, reduceCtorEq, and_false] at this
    rw [this]
  | latest _ hx _ _ =>
    cases h' with
    | production _ => simp [placeOf] at this
    | latest _ hx' _ _ =>
      simp only [placeOf, List.cons.injEq, and_true, true_and] at this
      rw [this.1, form_inj _ _ hx hx' this.2]
    | version _ _ _ _ _ => simp [placeOf] at this
  | version _ hx _ _ _ =>
    cases h' with
    | production _ => simp [placeOf] at this
    | latest _ _ _ _ => simp [placeOf] at this
    | version _ hx' _ _ _ =>
      simp only [placeOf, List.cons.injEq, and_true, true_and] at this
      rw [this.1, form_inj _ _ hx hx' this.2.1, this.2.2]

/-! ## Cases -/

def path (branch client doc : String) : List String := (documentPath branch.toList client.toList doc.toList).map String.ofList

/-- The test of the code. -/
theorem C86_inside_case :
    path "000001AJ4G0000000000V6HYX8" "Grafbase Dashboard" "b1249cf1281ffffffff" =
      ["trusted-documents", "branch", "000001AJ4G0000000000V6HYX8", "Grafbase%20Dashboard", "b1249cf1281ffffffff"] ∧
    path "B" "é?" "a" = ["trusted-documents", "branch", "B", "%C3%A9%3F", "a"] := by
  decide +kernel

theorem C86_inside_met : Plain "Grafbase Dashboard".toList ∧ Clean "b1249".toList := by
  refine ⟨⟨by decide +kernel, by decide +kernel⟩, ⟨?_, by decide +kernel⟩⟩
  unfold Unreserved
  decide +kernel

/-- `feature/x y` as the name of a branch. -/
theorem C86_graph_case :
    (graphPath (.latest "shop".toList [0x66, 0x2F, 0x78, 0x20, 0x79])).map String.ofList = ["graphs", "shop", "branch", "f%2Fx+y"] := by
  decide +kernel

/-- FALSE that a document is one of the gateway's branch: the name of a document, or of a client, may lead to another. -/
theorem C86_outside_false :
    path "MINE" "app" "../../OTHER/admin/query" = path "OTHER" "admin" "query" ∧
    path "MINE" "../OTHER/admin" "query" = path "OTHER" "admin" "query" ∧
    path "MINE" "app" "%2e%2E/..\\OTHER/admin/query" = path "OTHER" "admin" "query" ∧
    path "MINE" "app" "../../../../graphs/shop" = ["graphs", "shop"] := by
  decide +kernel

/-- FALSE that a document is one of the client that asks. -/
theorem C86_client_false :
    path "B" "app" "../admin/query" = path "B" "admin" "query" ∧ path "B" "a/b" "c" = path "B" "a" "b/c" := by
  decide +kernel

/-- FALSE that other names are at other places: a percent sign is not encoded, and newlines are dropped. -/
theorem C86_same_false :
    path "B" "a b" "q" = path "B" "a%20b" "q" ∧ path "B" "app" "q\n" = path "B" "app" "q" := by
  decide +kernel

/-- FALSE that each branch has its place: `..` is that of the graph. -/
theorem C86_branch_false :
    (graphPath (.latest "shop".toList [0x2E, 0x2E])).map String.ofList = ["graphs", "shop", ""] ∧
    graphPath (.version "shop".toList [0x2E, 0x2E] "V".toList) = setPath "/graphs/shop/version/V".toList := by
  decide +kernel

end Verif.StoreUrls
