import Verif.Spec.NativeCoalesce
import Verif.Props.Failed
import Verif.Props.NoPanic

/-!
# C64: searching from JavaScript
-/

namespace Carmen

open Builder Spec

/-! ## The same as the native functions -/

theorem nearbyArg_of {v : JsValue} {b : Bool}
    (h : v = .undefined ∧ b = false ∨ v = .bool b) : nearbyArg v = some b := by
  rcases h with ⟨rfl, rfl⟩ | rfl <;> rfl

theorem phrasematchArg_of {S : Serde} {v : JsValue} {q : Subquery} {k : KeyWithId} {p : String}
    (h : MatchObject S v q k p) : phrasematchArg S v = some q := by
  unfold phrasematchArg
  have h1 : matchLangArg (v.prop "match_key") = some k.key.langSet := by
    unfold matchLangArg
    rw [if_pos h.keyObject, langsOf_langSetOf h.langs]
  have h2 : phraseLengthArg (v.prop "phrase") = some k.phraseLength := by
    rw [h.phrase, h.length]; rfl
  have h3 : storeArg (v.prop "store") = some q.store := by rw [h.store]; rfl
  rw [if_pos h.object]
  simp only [h3, h1, nearbyArg_of h.nearby, h.nonOverlapping, h2, h.weight, h.matchPhrase, h.id,
    h.mask, h.idx, Option.bind_eq_bind, Option.bind_some]
  rw [← h.one]

theorem phrasematchArgs_of {S : Serde} {items : List JsValue} {qs : List Subquery}
    (h : List.Forall₂ (fun v q => ∃ k p, MatchObject S v q k p) items qs) :
    phrasematchArgs S (.arr items) = some qs := by
  unfold phrasematchArgs
  simp only
  induction h with
  | nil => rfl
  | cons h ht ih =>
    obtain ⟨k, p, h⟩ := h
    rw [List.mapM_cons, phrasematchArg_of h, ih]
    rfl

theorem requestArgs_of {S : SearchSerde} {items : List JsValue} {qs : List Subquery} {o : JsValue}
    {opts : MatchOpts}
    (h : List.Forall₂ (fun v q => ∃ k p, MatchObject S.toSerde v q k p) items qs)
    (ho : S.opts o = some opts) (rest : List JsValue) :
    requestArgs S (.arr items :: o :: .func :: rest) = some (qs, opts) := by
  unfold requestArgs
  simp only [List.getElem?_cons_zero, List.getElem?_cons_succ, Option.bind_eq_bind,
    Option.bind_some, phrasematchArgs_of h, ho]

/-- C64: called with objects that stand for phrase matches, options and a callback, the functions hand
the callback what the native functions return. -/
theorem C64_same_as_native (S : SearchSerde) (env : TreeEnv) (os : ℕ → IterOrder)
    {items : List JsValue} {qs : List Subquery} {o : JsValue} {opts : MatchOpts}
    (h : List.Forall₂ (fun v q => ∃ k p, MatchObject S.toSerde v q k p) items qs)
    (ho : S.opts o = some opts) (rest : List JsValue) :
    jsCoalesce S env.toEnv os (.arr items :: o :: .func :: rest) =
      .returned (coalesce env.toEnv os qs opts) ∧
    jsStackAndCoalesce S env (.arr items :: o :: .func :: rest) =
      .returned (stackAndCoalesce env qs opts) ∧
    jsStackable S (.arr items :: rest) = .returned ((stackable qs).map fun _ => ()) := by
  refine ⟨?_, ?_, ?_⟩
  · unfold jsCoalesce
    rw [requestArgs_of h ho]
  · unfold jsStackAndCoalesce
    rw [requestArgs_of h ho]
  · unfold jsStackable
    simp only [List.getElem?_cons_zero, Option.bind_some, phrasematchArgs_of h]

/-! ## No crash -/

/-- A store written from JavaScript is fit. -/
theorem Spec.JsIndex.fit {S : SearchSerde} {s : Store} (h : JsIndex S s) : StoreFit s := by
  obtain ⟨o, cs, fault, st, oks, args, h1, h2, h3, h4, h5⟩ := h.written
  obtain ⟨ds, -, hu, -, hfin, -, -⟩ := C65_javascript S.toSerde o cs h1 fault st oks h2 h3 h4
  have hdb : s.db = st.db := by
    unfold jsOpen at h5
    split at h5
    · obtain ⟨x, -, rfl⟩ := Option.map_eq_some_iff.1 h5
      rfl
    · cases h5
      rfl
    · cases h5
  refine ⟨(Directory.of_calls (o := o) (ds := ds.filterMap id) ?_ (by rw [hdb]; exact hfin)).laidOut
    (by rw [hdb]; exact h4), h.radius, h.zoom⟩
  intro d hd
  obtain ⟨i, hi, hdi⟩ := List.getElem_of_mem (show some d ∈ ds by simpa using hd)
  exact ((List.forall₂_iff_get.1 hu).2 i (by rw [hu.length_eq]; exact hi) hi).1 d hdi

theorem requestArgs_inv {S : SearchSerde} {args : List JsValue} {r : List Subquery × MatchOpts}
    (h : requestArgs S args = some r) :
    ∃ items o, args[0]? = some (.arr items) ∧ args[1]? = some o ∧ S.opts o = some r.2 ∧
      items.mapM (phrasematchArg S.toSerde) = some r.1 := by
  unfold requestArgs at h
  simp only [Option.bind_eq_bind, Option.bind_eq_some_iff] at h
  obtain ⟨v, h1, o, h2, qs, h3, opts, h4, h5⟩ := h
  split at h5
  · cases h5
    unfold phrasematchArgs at h3
    split at h3
    · exact ⟨_, o, h1, h2, h4, h3⟩
    · cases h3
  · cases h5

theorem phrasematchArg_fields {S : SearchSerde} {v : JsValue} {q : Subquery}
    (h : phrasematchArg S.toSerde v = some q) :
    v.prop "store" = .store q.store ∧ S.float (v.prop "weight") = some q.weight ∧
      ∃ k, q.matchKeys = [k] ∧ k.key.phrase.start < 2 ^ 32 := by
  refine ⟨(phrasematchArg_one h).2.1, ?_⟩
  unfold phrasematchArg at h
  split at h
  · simp only [Option.bind_eq_bind, Option.bind_eq_some_iff] at h
    obtain ⟨s, -, l, -, n, -, non, -, len, -, w, hw, p, hp, i, -, m, -, x, -, hq⟩ := h
    cases hq
    exact ⟨hw, _, rfl, S.phrase_wf _ _ hp⟩
  · cases h

theorem requestFit_of {S : SearchSerde} {args : List JsValue} (ha : SearchArgs S args)
    {r : List Subquery × MatchOpts} (h : requestArgs S args = some r) :
    RequestFit false r.1 r.2 ∧ TreeFit false r.1 r.2 ∧ ∀ q ∈ r.1, q.weight.IsFin ∧ q.weight ≤ 1 := by
  obtain ⟨items, o, h0, h1, h2, h3⟩ := requestArgs_inv h
  have hf : ∀ q ∈ r.1, ∃ v ∈ items, v.prop "store" = .store q.store ∧
      S.float (v.prop "weight") = some q.weight ∧
      ∃ k, q.matchKeys = [k] ∧ k.key.phrase.start < 2 ^ 32 := by
    intro q hq
    obtain ⟨v, hv, hvq⟩ := mapM_some_mem h3 hq
    exact ⟨v, hv, phrasematchArg_fields hvq⟩
  have ho := S.opts_wf _ _ h2
  refine ⟨⟨?_, ?_, ?_, ⟨?_, ?_⟩, ha.zoom o h1 _ h2, ?_, ?_⟩, ?_, ?_⟩
  · intro q hq
    obtain ⟨v, hv, e, -⟩ := hf q hq
    exact (ha.stores items h0 v hv _ e).fit
  · intro q hq
    obtain ⟨v, hv, -, -, k, e, -⟩ := hf q hq
    rw [e]; simp
  · intro q hq k hk
    obtain ⟨v, hv, -, -, k', e, hp⟩ := hf q hq
    rw [e, List.mem_singleton] at hk
    subst hk
    exact ⟨hp, by simp, by simp⟩
  · intro b hb
    exact ⟨(ho.2.2 b hb).2.2.1, (ho.2.2 b hb).2.2.2⟩
  · intro p hp
    exact ho.2.1 p hp
  · intro h; cases h
  · intro h; cases h
  · intro h; cases h
  · intro q hq
    obtain ⟨v, hv, -, e, -⟩ := hf q hq
    exact ha.weights items h0 v hv _ e

/-- C64: in a release build, `stackAndCoalesce` throws or its callback gets a result, whatever the
arguments, on stores written from JavaScript. -/
theorem C64_stack_and_coalesce (S : SearchSerde) (env : TreeEnv) (henv : env.chk = false)
    (args : List JsValue) (ha : SearchArgs S args) :
    jsStackAndCoalesce S env args = .threw ∨
      ∃ out, jsStackAndCoalesce S env args = .returned (some out) := by
  unfold jsStackAndCoalesce
  cases h : requestArgs S args with
  | none => exact Or.inl rfl
  | some r =>
    obtain ⟨h1, h2, h3⟩ := requestFit_of ha h
    obtain ⟨out, h4⟩ := C60_stack_and_coalesce (env := env) (by rw [henv]; exact h1)
      (by rw [henv]; exact h2) h3
    exact Or.inr ⟨out, by simp only [h4]⟩

/-- C64: the same for `coalesce`, if the array is not empty. -/
theorem C64_coalesce (S : SearchSerde) (env : Env) (henv : env.chk = false) (os : ℕ → IterOrder)
    (args : List JsValue) (ha : SearchArgs S args) (hne : args[0]? ≠ some (.arr [])) :
    jsCoalesce S env os args = .threw ∨ ∃ out, jsCoalesce S env os args = .returned (some out) := by
  unfold jsCoalesce
  cases h : requestArgs S args with
  | none => exact Or.inl rfl
  | some r =>
    obtain ⟨h1, -, -⟩ := requestFit_of ha h
    have hr : r.1 ≠ [] := by
      intro he
      obtain ⟨items, o, h0, -, -, h3⟩ := requestArgs_inv h
      rw [he] at h3
      cases items with
      | nil => exact hne h0
      | cons v t =>
        rw [List.mapM_cons] at h3
        simp only [Option.bind_eq_bind, Option.bind_eq_some_iff] at h3
        obtain ⟨_, -, _, -, h3⟩ := h3
        cases h3
    obtain ⟨out, h4⟩ := C60_coalesce (env := env) (by rw [henv]; exact h1) hr
      (by rw [henv]; intro h; cases h) os
    exact Or.inr ⟨out, by simp only [h4]⟩

/-- C64: `coalesce` with an empty array, any options and a callback panics, in any build. -/
theorem C64_empty_array (S : SearchSerde) (env : Env) (os : ℕ → IterOrder) {o : JsValue}
    {opts : MatchOpts} (ho : S.opts o = some opts) (rest : List JsValue) :
    jsCoalesce S env os (.arr [] :: o :: .func :: rest) = .returned none := by
  unfold jsCoalesce
  rw [requestArgs_of .nil ho]
  rfl

/-! ## One letter -/

theorem utf8ByteSize_ofList (l : List Char) :
    (String.ofList l).utf8ByteSize = (l.map Char.utf8Size).sum := by
  induction l with
  | nil => rfl
  | cons c t ih =>
    have : String.ofList (c :: t) = String.singleton c ++ String.ofList t := by
      rw [String.ofList_cons]
    rw [this, String.utf8ByteSize_append, String.utf8ByteSize_singleton, ih, List.map_cons,
      List.sum_cons]

/-- C64: the length by which one-letter phrases are told is 1 exactly for phrases of one ASCII
character. -/
theorem C64_one_letter {S : Serde} {v : JsValue} {q : Subquery} {k : KeyWithId} {p : String}
    (h : MatchObject S v q k p) :
    k.phraseLength = 1 ↔ ∃ c : Char, p = String.singleton c ∧ c.val ≤ 127 := by
  rw [h.length]
  obtain ⟨l, rfl⟩ : ∃ l, p = String.ofList l := ⟨p.toList, by simp⟩
  rw [utf8ByteSize_ofList]
  constructor
  · intro hl
    match l, hl with
    | [c], hl =>
      refine ⟨c, by simp, ?_⟩
      have : c.utf8Size = 1 := by simpa using hl
      exact Char.utf8Size_eq_one_iff.1 this
    | a :: b :: t, hl =>
      have h1 := Char.utf8Size_pos a
      have h2 := Char.utf8Size_pos b
      simp only [List.map_cons, List.sum_cons] at hl
      omega
  · rintro ⟨c, hc, hv⟩
    have : l = [c] := by
      have := congrArg String.toList hc
      simpa using this
    subst this
    simp only [List.map_cons, List.map_nil, List.sum_cons, List.sum_nil, Nat.add_zero]
    exact Char.utf8Size_eq_one_iff.2 hv

/-! ## Opening -/

/-- C64: `new GridStore(path, options)` opens what is in the directory with the options given, and
`new GridStore(path)` with zoom 6, type 0, radius 0, one box of the 64 by 64 tiles of zoom 6 and maximum
score 0. Without a path it throws. -/
theorem C64_open (S : SearchSerde) (db : SMap Bytes Bytes) (path : String) (rest : List JsValue) :
    (∀ v o, S.storeOpts v = some o → ∃ s, jsOpen S db (.str path :: v :: rest) = some s ∧ s.db = db ∧
      s.zoom = o.zoom ∧ s.typeId = o.typeId ∧ s.radius = o.radius ∧ s.bboxes = o.bboxes ∧
      s.maxScore = o.maxScore) ∧
    (∀ v, S.storeOpts v = none → jsOpen S db (.str path :: v :: rest) = none) ∧
    (∃ s, jsOpen S db [.str path] = some s ∧ s.db = db ∧ s.zoom = 6 ∧ s.typeId = 0 ∧ s.radius = 0 ∧
      s.bboxes = [⟨0, 0, 63, 63⟩] ∧ s.maxScore = 0) ∧
    ∀ v, (∀ p, v ≠ .str p) → jsOpen S db (v :: rest) = none := by
  refine ⟨?_, ?_, ⟨_, rfl, rfl, rfl, rfl, rfl, rfl, rfl⟩, ?_⟩
  · intro v o h
    refine ⟨Store.openWith db o.zoom o.typeId o.radius o.bboxes o.maxScore, ?_, rfl, rfl, rfl, rfl, rfl,
      rfl⟩
    simp only [jsOpen, List.getElem?_cons_zero, List.getElem?_cons_succ, h, Option.map_some]
  · intro v h
    simp only [jsOpen, List.getElem?_cons_zero, List.getElem?_cons_succ, h, Option.map_none]
  · intro v h
    simp only [jsOpen, List.getElem?_cons_zero]
    cases v <;> first | exact absurd rfl (h _) | rfl

/-! ## A search -/

/-- Options of a request (without point and box) and of a store, taken from objects. -/
def plainSearch : SearchSerde where
  toSerde := plainSerde
  opts v := (natIn 65535 (v.prop "zoom")).map fun z => ⟨none, none, z⟩
  storeOpts v := do
    let z ← natIn 65535 (v.prop "zoom")
    let t ← natIn 65535 (v.prop "type_id")
    let r ← (v.prop "coalesce_radius").number
    let m ← (v.prop "max_score").number
    some ⟨z, t, r, [], m⟩
  phrase_wf v p h := by
    obtain ⟨n, hn, rfl⟩ := Option.map_eq_some_iff.1 h
    have h1 := natIn_le hn
    have h6 : u32Max < 2 ^ 32 := by decide
    change n < _
    omega
  opts_wf v o h := by
    obtain ⟨n, hn, rfl⟩ := Option.map_eq_some_iff.1 h
    have h1 := natIn_le hn
    exact ⟨by change n < _; omega, by simp, by simp⟩

/-- Calls that write one feature, one of them thrown out. -/
def searchCalls : List JsCall :=
  [.append [jsKey 12 [2], .arr [jsEntry 5]], .append [.null, .null], .renumber [.null]]

/-- The directory they fill. -/
def searchDb : SMap Bytes Bytes :=
  ((JsBuilder.run plainSerde .id (.new []) (searchCalls ++ [.finish .none])).map
    fun r => r.1.db).getD []

/-- The store opened on it. -/
def searchStore : Store := Store.openWith searchDb 6 1 (.fin 200) [] (.fin 3)

/-- A phrase match in it. -/
def searchItem (phrase : String) : JsValue :=
  .obj [("store", .store searchStore), ("weight", .num (lit 0.5)), ("mask", .num (.fin 1)),
    ("match_key", .obj [("match_phrase", .num (.fin 12)), ("lang_set", .arr [.num (.fin 2)])]),
    ("id", .num (.fin 0)), ("idx", .num (.fin 3)), ("phrase", .str phrase),
    ("non_overlapping_indexes", .arr [.num (.fin 4)])]

/-- What it stands for. -/
def searchMatch (phrase : String) : Subquery :=
  ⟨searchStore, 3, [4], lit 0.5, 1, [⟨⟨.exact 12, 4⟩, false, 0, phrase.utf8ByteSize⟩]⟩

theorem searchItem_stands (phrase : String) :
    MatchObject plainSerde (searchItem phrase) (searchMatch phrase)
      ⟨⟨.exact 12, 4⟩, false, 0, phrase.utf8ByteSize⟩ phrase where
  object := rfl
  store := rfl
  weight := rfl
  mask := by rfl
  idx := by rfl
  nonOverlapping := by rfl
  one := rfl
  keyObject := rfl
  matchPhrase := by rfl
  langs := .arr [2] 4 (by decide) (by decide)
  nearby := Or.inl ⟨rfl, rfl⟩
  id := by rfl
  phrase := rfl
  length := rfl

theorem searchStore_index : JsIndex plainSearch searchStore := by
  refine ⟨⟨.id, searchCalls, .none, ?_⟩, by decide +kernel, by decide +kernel⟩
  have h : (JsBuilder.run plainSerde .id (.new []) (searchCalls ++ [.finish .none])).map
      (fun r => decide (r.2 = [true, false, false] ++ [true] ∧ SmallRecords r.1.db)) = some true := by
    decide +kernel
  obtain ⟨⟨st, oks⟩, h1, h2⟩ := Option.map_eq_some_iff.1 h
  obtain ⟨h2, h3⟩ := of_decide_eq_true h2
  have hdb : searchDb = st.db := by
    unfold searchDb
    rw [h1]; rfl
  simp only at h2
  refine ⟨st, [true, false, false], [.str "dir", .obj [("zoom", .num (.fin 6)),
    ("type_id", .num (.fin 1)), ("coalesce_radius", .num (.fin 200)), ("max_score", .num (.fin 3))]], ?_, ?_, rfl,
    h3, ?_⟩
  · intro c hc
    simp only [searchCalls, List.mem_cons, List.not_mem_nil, or_false] at hc
    rcases hc with rfl | rfl | rfl <;> trivial
  · rw [h2] at h1; exact h1
  · rw [← hdb]; rfl

/-- A search that finds the feature. -/
example : SearchArgs plainSearch [.arr [searchItem "main"], .obj [("zoom", .num (.fin 6))], .func] ∧
    (match jsStackAndCoalesce plainSearch (listTreeEnv false)
      [.arr [searchItem "main"], .obj [("zoom", .num (.fin 6))], .func] with
    | .returned (some out) => decide (out.map (fun c => c.entries.map fun e => e.entry.id) = [[5]])
    | _ => false) = true := by
  refine ⟨⟨?_, ?_, ?_⟩, ?_⟩
  · rintro items ⟨⟩ v hv s hs
    rw [List.mem_singleton.1 hv] at hs
    cases hs
    exact searchStore_index
  · rintro items ⟨⟩ v hv w hw
    rw [List.mem_singleton.1 hv] at hw
    cases hw
    exact ⟨by decide +kernel, by decide +kernel⟩
  · rintro o ⟨⟩ opts ho
    have : opts = ⟨none, none, 6⟩ := by
      have h : plainSearch.opts (.obj [("zoom", .num (.fin 6))]) = some ⟨none, none, 6⟩ := by
        decide +kernel
      exact Option.some.inj (ho.symm.trans h)
    subst this
    decide
  · decide +kernel

/-- C64: a phrase that is one letter but not ASCII is not taken for one, so the quota for one-letter
phrases (C43) does not apply to it. -/
theorem C64_accented_letter :
    ∃ v q k, MatchObject plainSerde v q k "é" ∧ ("é").length = 1 ∧ k.phraseLength = 2 :=
  ⟨_, _, _, searchItem_stands "é", by decide, by decide⟩

end Carmen
