import Verif.Props.TunedJs
import Verif.Props.Exclude
import Verif.Props.Retype

/-!
# C105 and C106 for requests from JavaScript
-/

namespace Carmen
open Spec

section
variable {C C' : PhraseCrate} {P : PhraseSerde C} {P' : PhraseSerde C'} {S S' : Serde}

/-- C105 for requests from JavaScript: with more `non_overlapping_indexes` the contexts of several entries that
come back are the ones that do not combine such indexes. -/
theorem C105_from_js (hC : FindsPhrases C) (hC' : FindsPhrases C') {T : SearchSerde}
    {src : Subquery → Source P S} {src' : Subquery → Source P' S'} {values values' : List JsValue}
    {qs : List Subquery} {o : JsValue} {opts : MatchOpts} {f : ℕ → List ℕ}
    (h : StackRequest T src values qs o opts)
    (h' : StackRequest T src' values' (qs.map (withExclusions f)) o opts)
    (hf : MoreExclusions f qs)
    {env env' : TreeEnv} (hchk : env.chk = false) (henv : env.toEnv = env'.toEnv)
    (hroom : RoomForGroups qs) (rest rest' : List JsValue) :
    ∃ out out', jsStackAndCoalesce T env (.arr values :: o :: .func :: rest) = .returned (some out) ∧
      jsStackAndCoalesce T env' (.arr values' :: o :: .func :: rest') = .returned (some out') ∧
      (Short out → Short out' → ∀ c : Context, 2 ≤ c.entries.length →
        (c ∈ out' ↔ c ∈ out ∧ Allowed f c)) := by
  obtain ⟨out, out', h1, h2, h3, h4⟩ := both_return hC hC' h.toAnyRequest h'.toAnyRequest hchk henv rest rest'
  refine ⟨out, out', h3, h4, fun s s' c hl => ⟨fun hc => ?_, fun hc => ?_⟩⟩
  · exact C105_only henv hf h.delivered h.few h'.few (Or.inr h.zooms) hroom h1 h2 s c hc hl
  · exact C105_kept henv hf h.delivered h.few h'.few (Or.inr h.zooms) hroom h1 h2 s' c hc.1 hl hc.2

/-- C106 for requests from JavaScript: with indexes opened with other types in the same order the same contexts
come back. -/
theorem C106_from_js (hC : FindsPhrases C) (hC' : FindsPhrases C') {T : SearchSerde}
    {src : Subquery → Source P S} {src' : Subquery → Source P' S'} {values values' : List JsValue}
    {qs : List Subquery} {o : JsValue} {opts : MatchOpts} {g : ℕ → ℕ}
    (h : StackRequest T src values qs o opts)
    (h' : AnyRequest T src' values' (qs.map (withType g)) o opts)
    (hg : SameTypeOrder g qs)
    {env env' : TreeEnv} (hchk : env.chk = false) (henv : env.toEnv = env'.toEnv)
    (hroom : RoomForGroups qs) (rest rest' : List JsValue) :
    ∃ out out', jsStackAndCoalesce T env (.arr values :: o :: .func :: rest) = .returned (some out) ∧
      jsStackAndCoalesce T env' (.arr values' :: o :: .func :: rest') = .returned (some out') ∧
      (Short out → Short out' → ∀ c, c ∈ out' ↔ c ∈ out) := by
  obtain ⟨out, out', h1, h2, h3, h4⟩ := both_return hC hC' h.toAnyRequest h' hchk henv rest rest'
  exact ⟨out, out', h3, h4, C106_same henv hg h.delivered h.few (Or.inr h.zooms) hroom h1 h2⟩

end

/-! ## Examples -/

/-- Other types in the same order. -/
def farType (t : ℕ) : ℕ := if t = 1 then 4 else 9

theorem farType_order : SameTypeOrder farType [foundMatch 1, foundMatch 2] := by
  unfold SameTypeOrder
  decide +kernel

/-- C106 from JavaScript: with the types 4 and 9 for 1 and 2 the same comes back. -/
example : ∃ out out',
    jsStackAndCoalesce splitSearch (listTreeEnv false)
      [.arr [storeItem (foundStore 1) 1, storeItem (foundStore 2) 2], foundOpts, .func] =
        .returned (some out) ∧
    jsStackAndCoalesce splitSearch (listTreeEnv false)
      [.arr [storeItem (foundStore 4) 1, storeItem (foundStore 9) 2], foundOpts, .func] =
        .returned (some out') ∧
    (∃ c ∈ out, c.entries.length = 2) ∧ ∀ c, c ∈ out' ↔ c ∈ out := by
  have hreq : AnyRequest splitSearch foundSource
      [storeItem (foundStore 4) 1, storeItem (foundStore 9) 2]
      ([foundMatch 1, foundMatch 2].map (withType farType)) foundOpts
      ⟨none, none, 6⟩ :=
    split_request
      (v1 := storeArgs 4 [("coalesce_radius", .num (.fin 200)), ("max_score", .num (.fin 3))])
      (v2 := storeArgs 9 [("coalesce_radius", .num (.fin 200)), ("max_score", .num (.fin 3))]) rfl rfl (by decide +kernel)
      (by decide +kernel) rfl rfl
  obtain ⟨out, out', h1, h2, h3⟩ := C106_from_js plainPhrases_finds plainPhrases_finds split_plain hreq
    farType_order (env := listTreeEnv false)
    (env' := listTreeEnv false) rfl rfl split_room [] []
  have g1 : (match jsStackAndCoalesce splitSearch (listTreeEnv false)
      [.arr [storeItem (foundStore 1) 1, storeItem (foundStore 2) 2], foundOpts, .func] with
    | .returned (some out) => decide (out.length < 40 ∧ ∃ c ∈ out, c.entries.length = 2)
    | _ => false) = true := by decide +kernel
  have g2 : (match jsStackAndCoalesce splitSearch (listTreeEnv false)
      [.arr [storeItem (foundStore 4) 1, storeItem (foundStore 9) 2], foundOpts, .func] with
    | .returned (some out) => decide (out.length < 40)
    | _ => false) = true := by decide +kernel
  rw [h1] at g1
  rw [h2] at g2
  obtain ⟨g1, g3⟩ := of_decide_eq_true g1
  exact ⟨out, out', h1, h2, g3, h3 (short_of_few g1) (short_of_few (of_decide_eq_true g2))⟩

/-- The phrase match of `foundItem` with an index that must not overlap. -/
def exclusiveItem (type other : ℕ) : JsValue :=
  .obj [("store", .store (foundStore type)), ("weight", .num (lit 0.5)), ("mask", .num (.fin type)),
    ("match_key", .obj [("match_phrase", .num (.fin 1)), ("lang_set", .arr [.num (.fin 3)])]),
    ("id", .num (.fin type)), ("idx", .num (.fin type)), ("phrase", .str "main"),
    ("non_overlapping_indexes", .arr [.num (.fin other)])]

theorem exclusiveItem_stands (type : ℕ) (h : type = 1 ∨ type = 2) :
    MatchObject worldSearch.toSerde (exclusiveItem type (3 - type))
      (withExclusions (fun i => [3 - i]) (foundMatch type)) (foundKey type) "main" := by
  rcases h with rfl | rfl <;>
  exact {
    object := rfl
    store := rfl
    weight := rfl
    mask := by rfl
    idx := by rfl
    nonOverlapping := by rfl
    one := rfl
    keyObject := rfl
    matchPhrase := by rfl
    langs := .arr [3] 8 (by decide) (by decide)
    nearby := Or.inl ⟨rfl, rfl⟩
    id := by rfl
    phrase := rfl
    length := rfl }

theorem exclusive_request : StackRequest worldSearch foundSource
    [exclusiveItem 1 2, exclusiveItem 2 1]
    ([foundMatch 1, foundMatch 2].map (withExclusions fun i => [3 - i])) foundOpts ⟨none, none, 6⟩ := by
  refine ⟨⟨?_, ?_, by decide +kernel, by decide, ?_, ⟨by decide +kernel, by decide +kernel,
    by decide +kernel⟩, by unfold ZoomsAscend; decide +kernel⟩, few_of_small (by decide +kernel)⟩
  · exact .cons ⟨_, _, exclusiveItem_stands 1 (Or.inl rfl)⟩
      (.cons ⟨_, _, exclusiveItem_stands 2 (Or.inr rfl)⟩ .nil)
  · intro q hq
    simp only [List.map_cons, List.map_nil, List.mem_cons, List.not_mem_nil, or_false] at hq
    rcases hq with rfl | rfl
    · exact foundStore_opened 1 (Or.inl rfl) _
    · exact foundStore_opened 2 (Or.inr rfl) _
  · intro q hq
    simp only [List.map_cons, List.map_nil, List.mem_cons, List.not_mem_nil, or_false] at hq
    rcases hq with rfl | rfl <;> exact ⟨by decide +kernel, by decide +kernel⟩

/-- C105 from JavaScript: with the two indexes excluding each other the contexts of both are gone, and
there are some. -/
example : ∃ out out',
    jsStackAndCoalesce worldSearch (listTreeEnv false)
      [.arr [foundItem 1, foundItem 2], foundOpts, .func] = .returned (some out) ∧
    jsStackAndCoalesce worldSearch (listTreeEnv false)
      [.arr [exclusiveItem 1 2, exclusiveItem 2 1], foundOpts, .func] = .returned (some out') ∧
    (∃ c ∈ out, c.entries.length = 2) ∧ out' ≠ [] ∧
    ∀ c : Context, 2 ≤ c.entries.length → (c ∈ out' ↔ c ∈ out ∧ Allowed (fun i => [3 - i]) c) := by
  obtain ⟨out, out', h1, h2, h3⟩ := C105_from_js plainPhrases_finds plainPhrases_finds found_request
    exclusive_request ⟨by decide +kernel, by decide +kernel⟩ (env := listTreeEnv false)
    (env' := listTreeEnv false) rfl rfl split_room [] []
  have g1 : (match jsStackAndCoalesce worldSearch (listTreeEnv false)
      [.arr [foundItem 1, foundItem 2], foundOpts, .func] with
    | .returned (some out) => decide (out.length < 40 ∧ ∃ c ∈ out, c.entries.length = 2)
    | _ => false) = true := by decide +kernel
  have g2 : (match jsStackAndCoalesce worldSearch (listTreeEnv false)
      [.arr [exclusiveItem 1 2, exclusiveItem 2 1], foundOpts, .func] with
    | .returned (some out) => decide (out.length < 40 ∧ out ≠ [])
    | _ => false) = true := by decide +kernel
  rw [h1] at g1
  rw [h2] at g2
  obtain ⟨g1, g3⟩ := of_decide_eq_true g1
  obtain ⟨g2, g4⟩ := of_decide_eq_true g2
  exact ⟨out, out', h1, h2, g3, g4, h3 (short_of_few g1) (short_of_few g2)⟩

end Carmen
