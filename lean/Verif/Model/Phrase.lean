import Verif.Model.Native

/-!
# The phrase index from JavaScript: native/src/fuzzy_phrase.rs

The index itself is the crate `fuzzy-phrase`, which is not in the repository: it is a parameter. What
is modelled is what the bindings do between JavaScript and the crate. Values made by
`neon_serde::to_value` are the values themselves.
-/

namespace Carmen

/-- `fuzzy_phrase::glue`: the functions the bindings call. A builder that reports an error may have
changed. `none` is an error. -/
structure PhraseCrate where
  /-- `FuzzyPhraseSetBuilder` -/
  State : Type
  /-- `FuzzyPhraseSet` -/
  Index : Type
  /-- `WordReplacement` -/
  Replacement : Type
  /-- The result of the fuzzy searches -/
  Match : Type
  new : State
  insert : State → List String → State × Option ℕ
  loadReplacements : State → List Replacement → State × Bool
  /-- The map from temporary to final ids, and the index written to the directory. -/
  finish : State → Option (List ℕ × Index)
  contains : Index → List String → Fin 3 → Option Bool
  fuzzyMatch : Index → List String → ℕ → ℕ → Fin 3 → Option Match
  fuzzyMatchWindows : Index → List String → ℕ → ℕ → Fin 3 → Option Match
  fuzzyMatchMulti : Index → List (List String × Fin 3) → ℕ → ℕ → Option Match
  getByPhraseId : Index → ℕ → Option (Option (List String))
  prefixBins : Index → ℕ → Option (List (ℕ × ℕ))
  insert_u32 : ∀ st w id, (insert st w).2 = some id → id < 2 ^ 32
  finish_u32 : ∀ st map ix, finish st = some (map, ix) → ∀ n ∈ map, n < 2 ^ 32

/-- What `neon_serde::from_value` makes of a value; `none` is an error. The ending types are 0, 1 and 2
(index.js:10-14). -/
structure PhraseSerde (C : PhraseCrate) where
  words : JsValue → Option (List String)
  ending : JsValue → Option (Fin 3)
  queries : JsValue → Option (List (List String × Fin 3))
  replacements : JsValue → Option (List C.Replacement)

/-! ## The builder -/

/-- A `FuzzyPhraseSetBuilder` object (fuzzy_phrase.rs:7) and the index in its directory, if any. -/
structure JsPhrases (C : PhraseCrate) where
  inner : Option C.State
  disk : Option C.Index

/-- `init` (fuzzy_phrase.rs:8-14). -/
def JsPhrases.new (C : PhraseCrate) (disk : Option C.Index) : JsPhrases C := ⟨some C.new, disk⟩

/-- `insert` (fuzzy_phrase.rs:16-42); the id is handed out as a number. -/
def jsPhraseInsert {C : PhraseCrate} (P : PhraseSerde C) (args : List JsValue) (st : JsPhrases C) :
    JsPhrases C × JsReply JsValue :=
  match args[0]?.bind P.words, st.inner with
  | some w, some b =>
    let r := C.insert b w
    ({ st with inner := some r.1 }, match r.2 with
      | some id => .returned (.num (.fin id))
      | none => .threw)
  | _, _ => (st, .threw)

/-- `loadWordReplacements` (fuzzy_phrase.rs:44-70). -/
def jsPhraseLoad {C : PhraseCrate} (P : PhraseSerde C) (args : List JsValue) (st : JsPhrases C) :
    JsPhrases C × JsReply JsValue :=
  match args[0]?.bind P.replacements, st.inner with
  | some l, some b =>
    let r := C.loadReplacements b l
    ({ st with inner := some r.1 }, if r.2 then .returned .undefined else .threw)
  | _, _ => (st, .threw)

/-- `finish` (fuzzy_phrase.rs:72-107): the builder is taken out, whatever happens then; the map of ids
is handed out as a buffer. What a failing `finish` leaves in the directory
is up to the crate; here it is nothing that opens. -/
def jsPhraseFinish {C : PhraseCrate} (st : JsPhrases C) : JsPhrases C × JsReply JsValue :=
  match st.inner with
  | none => (st, .threw)
  | some b => match C.finish b with
    | none => (⟨none, none⟩, .threw)
    | some (map, ix) => (⟨none, some ix⟩, .returned (bufferOf map))

/-- The calls on a builder of phrases. -/
inductive PhraseCall where
  | insert (args : List JsValue)
  | loadWordReplacements (args : List JsValue)
  | finish

/-- One call. -/
def JsPhrases.step {C : PhraseCrate} (P : PhraseSerde C) (st : JsPhrases C) :
    PhraseCall → JsPhrases C × JsReply JsValue
  | .insert args => jsPhraseInsert P args st
  | .loadWordReplacements args => jsPhraseLoad P args st
  | .finish => jsPhraseFinish st

/-! ## The index -/

/-- An answer of the crate, handed on; `none` throws. -/
def replyOf {α : Type} : Option α → JsReply α
  | some a => .returned a
  | none => .threw

/-- `contains` (fuzzy_phrase.rs:119-145). -/
def jsContains {C : PhraseCrate} (P : PhraseSerde C) (ix : C.Index) (args : List JsValue) :
    JsReply JsValue :=
  match args[0]?.bind P.words, args[1]?.bind P.ending with
  | some w, some e => replyOf ((C.contains ix w e).map .bool)
  | _, _ => .threw

/-- `fuzzyMatch` (fuzzy_phrase.rs:147-181) and `fuzzyMatchWindows` (fuzzy_phrase.rs:183-217), which
differ in the function of the crate. -/
def jsFuzzyWith {C : PhraseCrate} (f : C.Index → List String → ℕ → ℕ → Fin 3 → Option C.Match)
    (P : PhraseSerde C) (ix : C.Index) (args : List JsValue) : JsReply C.Match :=
  match args[0]?.bind P.words, numArg args 1, numArg args 2, args[3]?.bind P.ending with
  | some w, some d, some d', some e => replyOf (f ix w (castTo 255 d) (castTo 255 d') e)
  | _, _, _, _ => .threw

/-- `fuzzyMatchMulti` (fuzzy_phrase.rs:219-247). -/
def jsFuzzyMulti {C : PhraseCrate} (P : PhraseSerde C) (ix : C.Index) (args : List JsValue) :
    JsReply C.Match :=
  match args[0]?.bind P.queries, numArg args 1, numArg args 2 with
  | some qs, some d, some d' => replyOf (C.fuzzyMatchMulti ix qs (castTo 255 d) (castTo 255 d'))
  | _, _, _ => .threw

/-- `getByPhraseId` (fuzzy_phrase.rs:249-266). -/
def jsGetByPhraseId {C : PhraseCrate} (ix : C.Index) (args : List JsValue) : JsReply JsValue :=
  match numArg args 0 with
  | none => .threw
  | some n => match C.getByPhraseId ix (castTo u32Max n) with
    | none => .threw
    | some none => .returned .undefined
    | some (some w) => .returned (.arr (w.map .str))

/-- `getPrefixBins` (fuzzy_phrase.rs:268-305). -/
def jsPrefixBins {C : PhraseCrate} (ix : C.Index) (args : List JsValue) : JsReply JsValue :=
  match numArg args 0 with
  | none => .threw
  | some n => replyOf ((C.prefixBins ix (castTo usizeMax n)).map fun bins =>
      bufferOf (prefixBinIds bins))

end Carmen
