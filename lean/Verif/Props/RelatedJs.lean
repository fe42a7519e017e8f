import Verif.Props.Readings

/-!
# C108 to C110 for requests from JavaScript
-/

namespace Carmen
open Spec

section
variable {C : PhraseCrate} {P : PhraseSerde C} {S : Serde}

/-- C108 for requests from JavaScript. -/
theorem C108_from_js (hC : FindsPhrases C) {T : SearchSerde} {src : Subquery → Source P S}
    {values : List JsValue} {qs : List Subquery} {o : JsValue} {opts : MatchOpts}
    (h : StackRequest T src values qs o opts) {env : TreeEnv} (henv : env.chk = false)
    (hroom : RoomForGroups qs) (rest : List JsValue) :
    ∃ out, jsStackAndCoalesce T env (.arr values :: o :: .func :: rest) = .returned (some out) ∧
      (Short out → ∀ c ∈ out, ∀ lower upper, c.entries = lower ++ upper → lower ≠ [] → upper ≠ [] →
        contextAbove upper ∈ out) := by
  obtain ⟨out, hout, hjs⟩ := h.returns hC henv rest
  exact ⟨out, hjs, C108_above h.delivered h.few (Or.inr h.zooms) hroom hout⟩

/-- C109 for requests from JavaScript. -/
theorem C109_from_js (hC : FindsPhrases C) {T : SearchSerde} {src : Subquery → Source P S}
    {values : List JsValue} {qs : List Subquery} {o : JsValue} {opts : MatchOpts}
    (h : StackRequest T src values qs o opts) {env : TreeEnv} (henv : env.chk = false)
    (hroom : RoomForGroups qs) (hbox : BoxesCover env.toEnv opts qs) (rest : List JsValue) :
    ∃ out, jsStackAndCoalesce T env (.arr values :: o :: .func :: rest) = .returned (some out) ∧
      (Short out → ∀ c ∈ out, ∀ c' ∈ out, ∀ x lower upper lower' upper',
        c.entries = lower ++ x :: upper → c'.entries = lower' ++ x :: upper' → lower ≠ [] →
        upper' ≠ [] → OtherWords lower upper' → contextAbove (lower ++ x :: upper') ∈ out) := by
  obtain ⟨out, hout, hjs⟩ := h.returns hC henv rest
  exact ⟨out, hjs, C109_exchange h.delivered h.few (Or.inr h.zooms) hroom hbox hout⟩

/-- The request for a part of the array. -/
theorem request_part {T : SearchSerde} {src : Subquery → Source P S} {values values' : List JsValue}
    {qs as : List Subquery} {o : JsValue} {opts : MatchOpts} (h : AnyRequest T src values qs o opts)
    (hsub : as ⊆ qs) (hd : Delivered as)
    (ho : List.Forall₂ (fun v q => ∃ k text, MatchObject T.toSerde v q k text) values' as) :
    AnyRequest T src values' as o opts :=
  ⟨ho, fun q hq => h.opened q (hsub hq), h.decoded, h.zoom, fun q hq => h.weights q (hsub hq), hd,
    fun a ha b hb => h.zooms a (hsub ha) b (hsub hb)⟩

/-- C110 for requests from JavaScript: the array of all phrase matches gives what the arrays of the two
readings give. -/
theorem C110_from_js (hC : FindsPhrases C) {T : SearchSerde} {src : Subquery → Source P S}
    {va vb : List JsValue} {as bs : List Subquery} {o : JsValue} {opts : MatchOpts}
    (h : StackRequest T src (va ++ vb) (as ++ bs) o opts) (hl : va.length = as.length)
    (hex : ExcludeEachOther as bs) {env envA envB : TreeEnv} (henv : env.chk = false)
    (hA : env.toEnv = envA.toEnv) (hB : env.toEnv = envB.toEnv)
    (hroom : RoomForGroups (as ++ bs)) (hbox : BoxesCover env.toEnv opts (as ++ bs))
    (rest restA restB : List JsValue) :
    ∃ out outA outB,
      jsStackAndCoalesce T env (.arr (va ++ vb) :: o :: .func :: rest) = .returned (some out) ∧
      jsStackAndCoalesce T envA (.arr va :: o :: .func :: restA) = .returned (some outA) ∧
      jsStackAndCoalesce T envB (.arr vb :: o :: .func :: restB) = .returned (some outB) ∧
      (Short out → out.Perm (outA ++ outB)) := by
  obtain ⟨hda, hdb⟩ := readings_delivered h.delivered
  have ho := h.objects
  have hoa := List.forall₂_take va.length ho
  have hob := List.forall₂_drop va.length ho
  rw [List.take_left', hl, List.take_left'] at hoa
  rw [List.drop_left', hl, List.drop_left'] at hob
  all_goals try rfl
  have hra := request_part h.toAnyRequest (List.subset_append_left _ _) hda hoa
  have hrb := request_part h.toAnyRequest (List.subset_append_right _ _) hdb hob
  obtain ⟨out, hout, hjs⟩ := h.returns hC henv rest
  obtain ⟨outA, houtA, hjsA⟩ := hra.returns hC (env := envA) (by
    have := congrArg Env.chk hA
    rw [← this]
    exact henv) restA
  obtain ⟨outB, houtB, hjsB⟩ := hrb.returns hC (env := envB) (by
    have := congrArg Env.chk hB
    rw [← this]
    exact henv) restB
  exact ⟨out, outA, outB, hjs, hjsA, hjsB, C110_readings hA hB (List.Perm.refl _) hex h.delivered
    h.few h.zooms hroom hbox hout houtA houtB⟩

end

/-! ## Examples -/

theorem thirdItem_stands :
    MatchObject worldSearch.toSerde (foundItem 3) (foundMatch 3) (foundKey 3) "main" where
  object := rfl
  store := rfl
  weight := rfl
  mask := by rfl
  idx := by rfl
  nonOverlapping := by rfl
  one := rfl
  keyObject := rfl
  matchPhrase := by rfl
  langs := .arr [3] 8 (by decide) (by decide)
  nearby := Or.inl ⟨rfl, rfl⟩
  id := by rfl
  phrase := rfl
  length := rfl

theorem thirdStore_opened (q : Subquery) :
    Opened worldSearch (foundSource q).items (foundSource q).ix (foundStore 3) := by
  have h1 := foundStore_opened 1 (Or.inl rfl) q
  obtain ⟨⟨ord, db, args, h2, h3, h4⟩, h5, h6, h7⟩ := h1
  refine ⟨⟨.id, foundDb, [.str "dir", .obj [("zoom", .num (.fin 6)), ("type_id", .num (.fin 3)),
    ("coalesce_radius", .num (.fin 200)), ("max_score", .num (.fin 3))]], ?_, ?_, ?_⟩, h5, ?_, ?_⟩
  · have h : (buildIndex (P := plainPhraseSerde plainPhrases) .id (wordItems plainPhrases)).any
        (fun r => decide (r.1 = [["oak"], ["main"]])) = true := by decide +kernel
    unfold foundDb foundSource
    rcases hr : buildIndex (P := plainPhraseSerde plainPhrases) .id (wordItems plainPhrases) with
      _ | ⟨ix, db⟩
    · rw [hr] at h
      cases h
    · rw [hr] at h
      have := of_decide_eq_true h
      simp only at this
      subst this
      rfl
  · decide +kernel
  · rfl
  · decide +kernel
  · decide +kernel

/-- A request of two readings: the first word in one index and the second in another, and both in a
third. -/
theorem three_request : StackRequest worldSearch foundSource
    ([foundItem 1, foundItem 2] ++ [foundItem 3]) ([foundMatch 1, foundMatch 2] ++ [foundMatch 3])
    foundOpts ⟨none, none, 6⟩ := by
  refine ⟨⟨?_, ?_, by decide +kernel, by decide, ?_, ⟨by decide +kernel, by decide +kernel,
    by decide +kernel⟩, by unfold ZoomsAscend; decide +kernel⟩, few_of_small (by decide +kernel)⟩
  · exact .cons ⟨_, _, foundItem_stands 1 (Or.inl rfl)⟩
      (.cons ⟨_, _, foundItem_stands 2 (Or.inr rfl)⟩ (.cons ⟨_, _, thirdItem_stands⟩ .nil))
  · intro q hq
    simp only [List.cons_append, List.nil_append, List.mem_cons, List.not_mem_nil, or_false] at hq
    rcases hq with rfl | rfl | rfl
    · exact foundStore_opened 1 (Or.inl rfl) _
    · exact foundStore_opened 2 (Or.inr rfl) _
    · exact thirdStore_opened _
  · intro q hq
    simp only [List.cons_append, List.nil_append, List.mem_cons, List.not_mem_nil, or_false] at hq
    rcases hq with rfl | rfl | rfl <;> exact ⟨by decide +kernel, by decide +kernel⟩

theorem three_room : RoomForGroups ([foundMatch 1, foundMatch 2] ++ [foundMatch 3]) := by
  refine room_of_small (by decide +kernel) (by decide +kernel) ?_
  intro q hq kg hkg
  simp only [List.cons_append, List.nil_append, List.mem_cons, List.not_mem_nil, or_false] at hq
  rcases hq with rfl | rfl | rfl <;>
  · rw [List.mem_singleton.1 hkg]
    exact ⟨1, rfl⟩

/-- The hypotheses of C108 to C110 for it: there is a context of two entries in the first reading. -/
example : ∃ out outA outB,
    jsStackAndCoalesce worldSearch (listTreeEnv false)
      [.arr ([foundItem 1, foundItem 2] ++ [foundItem 3]), foundOpts, .func] = .returned (some out) ∧
    jsStackAndCoalesce worldSearch (listTreeEnv false)
      [.arr [foundItem 1, foundItem 2], foundOpts, .func] = .returned (some outA) ∧
    jsStackAndCoalesce worldSearch (listTreeEnv false)
      [.arr [foundItem 3], foundOpts, .func] = .returned (some outB) ∧
    Short out ∧ out.Perm (outA ++ outB) ∧ (∃ c ∈ outA, c.entries.length = 2) ∧ outB ≠ [] := by
  obtain ⟨out, outA, outB, h1, h2, h3, h4⟩ := C110_from_js plainPhrases_finds three_request rfl
    (by unfold ExcludeEachOther; decide +kernel) (env := listTreeEnv false) (envA := listTreeEnv false)
    (envB := listTreeEnv false) rfl rfl rfl three_room (boxesCover_of (by decide +kernel)) [] [] []
  have g1 : (match jsStackAndCoalesce worldSearch (listTreeEnv false)
      [.arr ([foundItem 1, foundItem 2] ++ [foundItem 3]), foundOpts, .func] with
    | .returned (some out) => decide (out.length < 40)
    | _ => false) = true := by decide +kernel
  have g2 : (match jsStackAndCoalesce worldSearch (listTreeEnv false)
      [.arr [foundItem 1, foundItem 2], foundOpts, .func] with
    | .returned (some out) => decide (∃ c ∈ out, c.entries.length = 2)
    | _ => false) = true := by decide +kernel
  have g3 : (match jsStackAndCoalesce worldSearch (listTreeEnv false)
      [.arr [foundItem 3], foundOpts, .func] with
    | .returned (some out) => decide (out ≠ [])
    | _ => false) = true := by decide +kernel
  rw [h1] at g1
  rw [h2] at g2
  rw [h3] at g3
  have hs : Short out := short_of_few (of_decide_eq_true g1)
  exact ⟨out, outA, outB, h1, h2, h3, hs, h4 hs, of_decide_eq_true g2, of_decide_eq_true g3⟩

end Carmen
