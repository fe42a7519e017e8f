import Verif.Props.Rekeyed
import Verif.Props.RelatedJs

/-!
# C111 to C113 for requests from JavaScript
-/

namespace Carmen
open Spec

section
variable {C C' : PhraseCrate} {P : PhraseSerde C} {P' : PhraseSerde C'} {S S' : Serde}

/-- Two requests from JavaScript that return. -/
theorem both_return (hC : FindsPhrases C) (hC' : FindsPhrases C') {T T' : SearchSerde}
    {src : Subquery → Source P S} {src' : Subquery → Source P' S'} {values values' : List JsValue}
    {qs qs' : List Subquery} {o o' : JsValue} {opts opts' : MatchOpts}
    (h : AnyRequest T src values qs o opts) (h' : AnyRequest T' src' values' qs' o' opts')
    {env env' : TreeEnv} (hchk : env.chk = false) (henv : env.toEnv = env'.toEnv)
    (rest rest' : List JsValue) :
    ∃ out out', stackAndCoalesce env qs opts = some out ∧ stackAndCoalesce env' qs' opts' = some out' ∧
      jsStackAndCoalesce T env (.arr values :: o :: .func :: rest) = .returned (some out) ∧
      jsStackAndCoalesce T' env' (.arr values' :: o' :: .func :: rest') = .returned (some out') := by
  obtain ⟨out, hout, hjs⟩ := h.returns hC hchk rest
  obtain ⟨out', hout', hjs'⟩ := h'.returns hC' (env := env') (by
    rw [← show env.chk = env'.chk from congrArg Env.chk henv]
    exact hchk) rest'
  exact ⟨out, out', hout, hout', hjs, hjs'⟩

/-- C111 for requests from JavaScript: with indexes opened with another radius and greatest score the
same contexts come back. -/
theorem C111_from_js (hC : FindsPhrases C) (hC' : FindsPhrases C') {T : SearchSerde}
    {src : Subquery → Source P S} {src' : Subquery → Source P' S'} {values values' : List JsValue}
    {qs : List Subquery} {o : JsValue} {opts : MatchOpts} {r m : Store → F64}
    (h : StackRequest T src values qs o opts)
    (h' : AnyRequest T src' values' (qs.map (tuned fun s => ⟨r s, m s, s.bboxes⟩)) o opts)
    (hr : opts.proximity = none ∨ ∀ q ∈ qs, r q.store = q.store.radius)
    {env env' : TreeEnv} (hchk : env.chk = false) (henv : env.toEnv = env'.toEnv)
    (hroom : RoomForGroups qs) (rest rest' : List JsValue) :
    ∃ out out', jsStackAndCoalesce T env (.arr values :: o :: .func :: rest) = .returned (some out) ∧
      jsStackAndCoalesce T env' (.arr values' :: o :: .func :: rest') = .returned (some out') ∧
      (Short out → Short out' → ∀ c, c ∈ out' ↔ c ∈ out) := by
  obtain ⟨out, out', h1, h2, h3, h4⟩ := both_return hC hC' h.toAnyRequest h' hchk henv rest rest'
  exact ⟨out, out', h3, h4, C111_same henv hr h.delivered h.few (Or.inr h.zooms) hroom h1 h2⟩

/-- C112 for requests from JavaScript: with indexes opened with other boxes for the same tiles the same
contexts come back. -/
theorem C112_from_js (hC : FindsPhrases C) (hC' : FindsPhrases C') {T : SearchSerde}
    {src : Subquery → Source P S} {src' : Subquery → Source P' S'} {values values' : List JsValue}
    {qs : List Subquery} {o : JsValue} {opts : MatchOpts} {f : Store → List BBox}
    (h : StackRequest T src values qs o opts)
    (h' : AnyRequest T src' values' (qs.map (withBoxes f)) o opts)
    (hf : ∀ q ∈ qs, SameRegion q.store (f q.store))
    {env env' : TreeEnv} (hchk : env.chk = false) (henv : env.toEnv = env'.toEnv)
    (hroom : RoomForGroups qs) (rest rest' : List JsValue) :
    ∃ out out', jsStackAndCoalesce T env (.arr values :: o :: .func :: rest) = .returned (some out) ∧
      jsStackAndCoalesce T env' (.arr values' :: o :: .func :: rest') = .returned (some out') ∧
      (Short out → Short out' → ∀ c, c ∈ out' ↔ c ∈ out) := by
  obtain ⟨out, out', h1, h2, h3, h4⟩ := both_return hC hC' h.toAnyRequest h' hchk henv rest rest'
  exact ⟨out, out', h3, h4, C112_same henv hf h.delivered h.few (Or.inr h.zooms) hroom h1 h2⟩

/-- C113 for requests from JavaScript: with other texts as `phrase`, and without a point with any
`nearby_only`, the same contexts come back. -/
theorem C113_from_js (hC : FindsPhrases C) (hC' : FindsPhrases C') {T : SearchSerde}
    {src : Subquery → Source P S} {src' : Subquery → Source P' S'} {values values' : List JsValue}
    {qs : List Subquery} {o : JsValue} {opts : MatchOpts} {f : KeyWithId → Bool × ℕ}
    (h : StackRequest T src values qs o opts)
    (h' : AnyRequest T src' values' (qs.map (rekeyed f)) o opts) (hr : NearbyIdle f opts qs)
    {env env' : TreeEnv} (hchk : env.chk = false) (henv : env.toEnv = env'.toEnv)
    (hroom : RoomForGroups qs) (hroom' : RoomForGroups (qs.map (rekeyed f)))
    (rest rest' : List JsValue) :
    ∃ out out', jsStackAndCoalesce T env (.arr values :: o :: .func :: rest) = .returned (some out) ∧
      jsStackAndCoalesce T env' (.arr values' :: o :: .func :: rest') = .returned (some out') ∧
      (Short out → Short out' → ∀ c, c ∈ out' ↔ c ∈ out) := by
  obtain ⟨out, out', h1, h2, h3, h4⟩ := both_return hC hC' h.toAnyRequest h' hchk henv rest rest'
  exact ⟨out, out', h3, h4, C113_same henv hr h.delivered h.few (Or.inr h.zooms) hroom hroom' h1 h2⟩

end

/-! ## Examples -/

/-- The phrase match of `foundItem`, for nearby grids only and with another text as phrase. -/
def nearItem (type : ℕ) : JsValue :=
  .obj [("store", .store (foundStore type)), ("weight", .num (lit 0.5)), ("mask", .num (.fin type)),
    ("match_key", .obj [("match_phrase", .num (.fin 1)), ("lang_set", .arr [.num (.fin 3)])]),
    ("id", .num (.fin type)), ("idx", .num (.fin type)), ("phrase", .str "main street"),
    ("nearby_only", .bool true), ("non_overlapping_indexes", .arr [])]

/-- What changes in the match keys. -/
def nearKeys (_ : KeyWithId) : Bool × ℕ := (true, 11)

theorem nearItem_stands (type : ℕ) (h : type = 1 ∨ type = 2) :
    MatchObject worldSearch.toSerde (nearItem type) (rekeyed nearKeys (foundMatch type))
      (rekey nearKeys (foundKey type)) "main street" := by
  rcases h with rfl | rfl <;>
  exact {
    object := rfl
    store := rfl
    weight := rfl
    mask := by rfl
    idx := by rfl
    nonOverlapping := by rfl
    one := rfl
    keyObject := rfl
    matchPhrase := by rfl
    langs := .arr [3] 8 (by decide) (by decide)
    nearby := Or.inr rfl
    id := by rfl
    phrase := rfl
    length := rfl }

theorem near_request : AnyRequest worldSearch foundSource [nearItem 1, nearItem 2]
    ([foundMatch 1, foundMatch 2].map (rekeyed nearKeys)) foundOpts ⟨none, none, 6⟩ := by
  refine ⟨?_, ?_, by decide +kernel, by decide, ?_, ⟨by decide +kernel, by decide +kernel,
    by decide +kernel⟩, by unfold ZoomsAscend; decide +kernel⟩
  · exact .cons ⟨_, _, nearItem_stands 1 (Or.inl rfl)⟩
      (.cons ⟨_, _, nearItem_stands 2 (Or.inr rfl)⟩ .nil)
  · intro q hq
    simp only [List.map_cons, List.map_nil, List.mem_cons, List.not_mem_nil, or_false] at hq
    rcases hq with rfl | rfl
    · exact foundStore_opened 1 (Or.inl rfl) _
    · exact foundStore_opened 2 (Or.inr rfl) _
  · intro q hq
    simp only [List.map_cons, List.map_nil, List.mem_cons, List.not_mem_nil, or_false] at hq
    rcases hq with rfl | rfl <;> exact ⟨by decide +kernel, by decide +kernel⟩

theorem split_room : RoomForGroups [foundMatch 1, foundMatch 2] := by
  refine room_of_small (by decide +kernel) (by decide +kernel) ?_
  intro q hq kg hkg
  simp only [List.mem_cons, List.not_mem_nil, or_false] at hq
  rcases hq with rfl | rfl <;>
  · rw [List.mem_singleton.1 hkg]
    exact ⟨1, rfl⟩

/-- C113 from JavaScript: the same comes back, a context of two entries among it. -/
example : ∃ out out',
    jsStackAndCoalesce worldSearch (listTreeEnv false)
      [.arr [foundItem 1, foundItem 2], foundOpts, .func] = .returned (some out) ∧
    jsStackAndCoalesce worldSearch (listTreeEnv false)
      [.arr [nearItem 1, nearItem 2], foundOpts, .func] = .returned (some out') ∧
    (∃ c ∈ out, c.entries.length = 2) ∧ ∀ c, c ∈ out' ↔ c ∈ out := by
  have r1 : RoomForGroups [foundMatch 1, foundMatch 2] := split_room
  have r2 : RoomForGroups ([foundMatch 1, foundMatch 2].map (rekeyed nearKeys)) := by
    refine room_of_small (by decide +kernel) (by decide +kernel) ?_
    intro q hq kg hkg
    simp only [List.map_cons, List.map_nil, List.mem_cons, List.not_mem_nil, or_false] at hq
    rcases hq with rfl | rfl <;>
    · rw [List.mem_singleton.1 hkg]
      exact ⟨1, rfl⟩
  obtain ⟨out, out', h1, h2, h3⟩ := C113_from_js plainPhrases_finds plainPhrases_finds found_request
    near_request (.inl rfl) (env := listTreeEnv false) (env' := listTreeEnv false) rfl rfl r1 r2 [] []
  have g1 : (match jsStackAndCoalesce worldSearch (listTreeEnv false)
      [.arr [foundItem 1, foundItem 2], foundOpts, .func] with
    | .returned (some out) => decide (out.length < 40 ∧ ∃ c ∈ out, c.entries.length = 2)
    | _ => false) = true := by decide +kernel
  have g2 : (match jsStackAndCoalesce worldSearch (listTreeEnv false)
      [.arr [nearItem 1, nearItem 2], foundOpts, .func] with
    | .returned (some out) => decide (out.length < 40)
    | _ => false) = true := by decide +kernel
  rw [h1] at g1
  rw [h2] at g2
  obtain ⟨g1, g3⟩ := of_decide_eq_true g1
  exact ⟨out, out', h1, h2, g3, h3 (short_of_few g1) (short_of_few (of_decide_eq_true g2))⟩

/-- Everything in two boxes. -/
def twoBoxes : List BBox := [⟨0, 0, 32767, 65535⟩, ⟨32768, 0, 65535, 65535⟩]

/-- Options of a request and of a store as in `worldSearch`, where a store with `bboxes` gets the two
boxes. -/
def splitSearch : SearchSerde where
  toSerde := plainSerde
  opts := plainSearch.opts
  storeOpts v := (plainSearch.storeOpts v).map fun o => { o with
    bboxes := if (v.prop "bboxes").isObject then twoBoxes else [⟨0, 0, 65535, 65535⟩] }
  phrase_wf := plainSearch.phrase_wf
  opts_wf := plainSearch.opts_wf

theorem foundDb_built (q : Subquery) :
    buildIndex .id (foundSource q).items = some ((foundSource q).ix, foundDb) := by
  have h : (buildIndex (P := plainPhraseSerde plainPhrases) .id (wordItems plainPhrases)).any
      (fun r => decide (r.1 = [["oak"], ["main"]])) = true := by decide +kernel
  unfold foundDb foundSource
  rcases hr : buildIndex (P := plainPhraseSerde plainPhrases) .id (wordItems plainPhrases) with
    _ | ⟨ix, db⟩
  · rw [hr] at h
    cases h
  · rw [hr] at h
    have := of_decide_eq_true h
    simp only at this
    subst this
    rfl

/-- The phrase match of `foundItem`, in this store. -/
def storeItem (s : Store) (type : ℕ) : JsValue :=
  .obj [("store", .store s), ("weight", .num (lit 0.5)), ("mask", .num (.fin type)),
    ("match_key", .obj [("match_phrase", .num (.fin 1)), ("lang_set", .arr [.num (.fin 3)])]),
    ("id", .num (.fin type)), ("idx", .num (.fin type)), ("phrase", .str "main"),
    ("non_overlapping_indexes", .arr [])]

theorem storeItem_stands (s : Store) (type : ℕ) (h : type = 1 ∨ type = 2) :
    MatchObject splitSearch.toSerde (storeItem s type) { foundMatch type with store := s } (foundKey type)
      "main" := by
  rcases h with rfl | rfl <;>
  exact {
    object := rfl
    store := rfl
    weight := rfl
    mask := by rfl
    idx := by rfl
    nonOverlapping := by rfl
    one := rfl
    keyObject := rfl
    matchPhrase := by rfl
    langs := .arr [3] 8 (by decide) (by decide)
    nearby := Or.inl ⟨rfl, rfl⟩
    id := by rfl
    phrase := rfl
    length := rfl }

theorem split_request {s1 s2 : Store} {v1 v2 : JsValue}
    (h1 : jsOpen splitSearch foundDb [.str "dir", v1] = some s1)
    (h2 : jsOpen splitSearch foundDb [.str "dir", v2] = some s2) (r1 : s1.radius ≠ .nan)
    (r2 : s2.radius ≠ .nan) (z1 : s1.zoom = 6) (z2 : s2.zoom = 6) :
    AnyRequest splitSearch foundSource [storeItem s1 1, storeItem s2 2]
      [{ foundMatch 1 with store := s1 }, { foundMatch 2 with store := s2 }] foundOpts
      ⟨none, none, 6⟩ := by
  have hsmall : SmallRecords foundDb := by decide +kernel
  have hsc : ∀ it ∈ wordItems plainPhrases, ∀ e ∈ it.grids, e.score ≤ 15 := by decide +kernel
  refine ⟨?_, ?_, by decide +kernel, by decide, ?_, ⟨?_, ?_, ?_⟩, ?_⟩
  · exact .cons ⟨_, _, storeItem_stands s1 1 (Or.inl rfl)⟩
      (.cons ⟨_, _, storeItem_stands s2 2 (Or.inr rfl)⟩ .nil)
  · intro q hq
    simp only [List.mem_cons, List.not_mem_nil, or_false] at hq
    rcases hq with rfl | rfl
    · exact ⟨⟨.id, foundDb, _, foundDb_built _, hsmall, h1⟩, hsc, r1, by rw [z1]; decide⟩
    · exact ⟨⟨.id, foundDb, _, foundDb_built _, hsmall, h2⟩, hsc, r2, by rw [z2]; decide⟩
  · intro q hq
    simp only [List.mem_cons, List.not_mem_nil, or_false] at hq
    have hw : (lit 0.5).IsFin ∧ lit 0.5 ≤ 1 := ⟨by decide +kernel, by decide +kernel⟩
    rcases hq with rfl | rfl <;> exact hw
  · intro q hq
    simp only [List.mem_cons, List.not_mem_nil, or_false] at hq
    rcases hq with rfl | rfl <;> rfl
  · change [1, 2].Nodup
    decide
  · intro a ha b hb e
    simp only [List.mem_cons, List.not_mem_nil, or_false] at ha hb
    rcases ha with rfl | rfl <;> rcases hb with rfl | rfl
    · exact ⟨rfl, rfl⟩
    · exact absurd (show (1 : ℕ) = 2 from e) (by decide)
    · exact absurd (show (2 : ℕ) = 1 from e) (by decide)
    · exact ⟨rfl, rfl⟩
  · intro a ha b hb
    simp only [List.mem_cons, List.not_mem_nil, or_false] at ha hb
    rcases ha with rfl | rfl <;> rcases hb with rfl | rfl <;> simp [z1, z2]

/-- Arguments for opening a store of this type. -/
def storeArgs (type : ℕ) (more : List (String × JsValue)) : JsValue :=
  .obj ([("zoom", .num (.fin 6)), ("type_id", .num (.fin type))] ++ more)

/-- The store of `foundStore` with a radius of 10 and a greatest score of 2. -/
def tightStore (type : ℕ) : Store :=
  Store.openWith foundDb 6 type (.fin 10) [⟨0, 0, 65535, 65535⟩] (.fin 2)

/-- The store of `foundStore` with two boxes. -/
def splitStore (type : ℕ) : Store := Store.openWith foundDb 6 type (.fin 200) twoBoxes (.fin 3)

theorem split_plain : StackRequest splitSearch foundSource
    [storeItem (foundStore 1) 1, storeItem (foundStore 2) 2] [foundMatch 1, foundMatch 2] foundOpts
    ⟨none, none, 6⟩ where
  toAnyRequest := split_request
    (v1 := storeArgs 1 [("coalesce_radius", .num (.fin 200)), ("max_score", .num (.fin 3))])
    (v2 := storeArgs 2 [("coalesce_radius", .num (.fin 200)), ("max_score", .num (.fin 3))]) rfl rfl
    (by decide +kernel) (by decide +kernel) rfl rfl
  few := few_of_small (by decide +kernel)

theorem split_region (q : Subquery) (hq : q ∈ [foundMatch 1, foundMatch 2]) :
    SameRegion q.store twoBoxes := by
  have e : q.store.bboxes = [⟨0, 0, 65535, 65535⟩] := by
    simp only [List.mem_cons, List.not_mem_nil, or_false] at hq
    rcases hq with rfl | rfl <;> rfl
  refine ⟨?_, by unfold ProperBoxes; decide +kernel, fun x y => ?_⟩
  · rw [e]
    unfold ProperBoxes
    decide +kernel
  · rw [e]
    simp only [InRegion, twoBoxes, List.mem_cons, List.not_mem_nil, or_false, exists_eq_or_imp,
      exists_eq_left]
    omega

/-- C111 from JavaScript: with a radius of 10 and a greatest score of 2 the same comes back. -/
example : ∃ out out',
    jsStackAndCoalesce splitSearch (listTreeEnv false)
      [.arr [storeItem (foundStore 1) 1, storeItem (foundStore 2) 2], foundOpts, .func] =
        .returned (some out) ∧
    jsStackAndCoalesce splitSearch (listTreeEnv false)
      [.arr [storeItem (tightStore 1) 1, storeItem (tightStore 2) 2], foundOpts, .func] =
        .returned (some out') ∧
    (∃ c ∈ out, c.entries.length = 2) ∧ ∀ c, c ∈ out' ↔ c ∈ out := by
  have hreq : AnyRequest splitSearch foundSource
      [storeItem (tightStore 1) 1, storeItem (tightStore 2) 2]
      ([foundMatch 1, foundMatch 2].map (tuned fun s => ⟨.fin 10, .fin 2, s.bboxes⟩)) foundOpts
      ⟨none, none, 6⟩ :=
    split_request
      (v1 := storeArgs 1 [("coalesce_radius", .num (.fin 10)), ("max_score", .num (.fin 2))])
      (v2 := storeArgs 2 [("coalesce_radius", .num (.fin 10)), ("max_score", .num (.fin 2))]) rfl rfl (by decide +kernel)
      (by decide +kernel) rfl rfl
  obtain ⟨out, out', h1, h2, h3⟩ := C111_from_js plainPhrases_finds plainPhrases_finds split_plain hreq
    (r := fun _ => .fin 10) (m := fun _ => .fin 2) (.inl rfl) (env := listTreeEnv false)
    (env' := listTreeEnv false) rfl rfl split_room [] []
  have g1 : (match jsStackAndCoalesce splitSearch (listTreeEnv false)
      [.arr [storeItem (foundStore 1) 1, storeItem (foundStore 2) 2], foundOpts, .func] with
    | .returned (some out) => decide (out.length < 40 ∧ ∃ c ∈ out, c.entries.length = 2)
    | _ => false) = true := by decide +kernel
  have g2 : (match jsStackAndCoalesce splitSearch (listTreeEnv false)
      [.arr [storeItem (tightStore 1) 1, storeItem (tightStore 2) 2], foundOpts, .func] with
    | .returned (some out) => decide (out.length < 40)
    | _ => false) = true := by decide +kernel
  rw [h1] at g1
  rw [h2] at g2
  obtain ⟨g1, g3⟩ := of_decide_eq_true g1
  exact ⟨out, out', h1, h2, g3, h3 (short_of_few g1) (short_of_few (of_decide_eq_true g2))⟩

/-- C112 from JavaScript: with everything in two boxes the same comes back. -/
example : ∃ out out',
    jsStackAndCoalesce splitSearch (listTreeEnv false)
      [.arr [storeItem (foundStore 1) 1, storeItem (foundStore 2) 2], foundOpts, .func] =
        .returned (some out) ∧
    jsStackAndCoalesce splitSearch (listTreeEnv false)
      [.arr [storeItem (splitStore 1) 1, storeItem (splitStore 2) 2], foundOpts, .func] =
        .returned (some out') ∧
    (∃ c ∈ out, c.entries.length = 2) ∧ ∀ c, c ∈ out' ↔ c ∈ out := by
  have hreq : AnyRequest splitSearch foundSource
      [storeItem (splitStore 1) 1, storeItem (splitStore 2) 2]
      ([foundMatch 1, foundMatch 2].map (withBoxes fun _ => twoBoxes)) foundOpts
      ⟨none, none, 6⟩ :=
    split_request
      (v1 := storeArgs 1 [("coalesce_radius", .num (.fin 200)), ("max_score", .num (.fin 3)),
      ("bboxes", .obj [])])
      (v2 := storeArgs 2 [("coalesce_radius", .num (.fin 200)), ("max_score", .num (.fin 3)),
      ("bboxes", .obj [])]) rfl rfl (by decide +kernel)
      (by decide +kernel) rfl rfl
  obtain ⟨out, out', h1, h2, h3⟩ := C112_from_js plainPhrases_finds plainPhrases_finds split_plain hreq
    (f := fun _ => twoBoxes) split_region (env := listTreeEnv false)
    (env' := listTreeEnv false) rfl rfl split_room [] []
  have g1 : (match jsStackAndCoalesce splitSearch (listTreeEnv false)
      [.arr [storeItem (foundStore 1) 1, storeItem (foundStore 2) 2], foundOpts, .func] with
    | .returned (some out) => decide (out.length < 40 ∧ ∃ c ∈ out, c.entries.length = 2)
    | _ => false) = true := by decide +kernel
  have g2 : (match jsStackAndCoalesce splitSearch (listTreeEnv false)
      [.arr [storeItem (splitStore 1) 1, storeItem (splitStore 2) 2], foundOpts, .func] with
    | .returned (some out) => decide (out.length < 40)
    | _ => false) = true := by decide +kernel
  rw [h1] at g1
  rw [h2] at g2
  obtain ⟨g1, g3⟩ := of_decide_eq_true g1
  exact ⟨out, out', h1, h2, g3, h3 (short_of_few g1) (short_of_few (of_decide_eq_true g2))⟩

end Carmen
