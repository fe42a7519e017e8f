import Verif.Model.Phrase
import Verif.Spec.Native

/-!
# Specification: an index of phrases and grids built from JavaScript

What the crate `fuzzy-phrase` has to do (it is not in the repository), and the program a user of the
two builders writes.
-/

namespace Carmen.Spec

/-- A builder of phrases that has been given these phrases, one after the other, and has handed out
these ids. -/
inductive Logged (C : PhraseCrate) : C.State → List (List String × ℕ) → Prop
  | new : Logged C C.new []
  | insert {st st' : C.State} {log : List (List String × ℕ)} {w : List String} {id : ℕ}
      (h : Logged C st log) (hi : C.insert st w = (st', some id)) :
      Logged C st' (log ++ [(w, id)])

/-- The phrase index finds phrases by their final ids: exactly the phrases given to the builder, each
under one id, the one its map gives for every id handed out for the phrase. -/
structure FindsPhrases (C : PhraseCrate) : Prop where
  total : ∀ {st log map ix}, Logged C st log → C.finish st = some (map, ix) →
    ∀ {w id}, (w, id) ∈ log → id < map.length
  exact : ∀ {st log map ix}, Logged C st log → C.finish st = some (map, ix) →
    ∀ {n w}, C.getByPhraseId ix n = some (some w) ↔ ∃ id, (w, id) ∈ log ∧ map[id]? = some n
  once : ∀ {st log map ix}, Logged C st log → C.finish st = some (map, ix) →
    ∀ {n n' w}, C.getByPhraseId ix n = some (some w) → C.getByPhraseId ix n' = some (some w) → n = n'

/-- A phrase with a language set and grids, as JavaScript values and what they mean. -/
structure IndexItem {C : PhraseCrate} (P : PhraseSerde C) (S : Serde) where
  phrase : JsValue
  langs : JsValue
  entries : JsValue
  words : List String
  langSet : ℕ
  grids : List GridEntry
  phrase_words : P.words phrase = some words
  langs_set : LangsOf langs langSet
  entries_grids : S.entries entries = some grids

/-- `const id = phrases.insert(phrase); grids.append({phrase_id: id, lang_set: langs}, entries)`;
`none`: a call throws. -/
def indexItem {C : PhraseCrate} {P : PhraseSerde C} {S : Serde} (st : JsPhrases C × JsBuilder)
    (it : IndexItem P S) : Option (JsPhrases C × JsBuilder) :=
  match jsPhraseInsert P [it.phrase] st.1 with
  | (ph, .returned id) =>
    match jsAppend S [.obj [("phrase_id", id), ("lang_set", it.langs)], it.entries] st.2 with
    | (gb, true) => some (ph, gb)
    | (_, false) => none
  | (_, .threw) => none

/-- All items, then `grids.renumber(phrases.finish()); grids.finish()`, in empty directories: the index
of phrases and the database of grids. `none`: a call throws or does not return. -/
def buildIndex {C : PhraseCrate} {P : PhraseSerde C} {S : Serde} (o : IterOrder)
    (items : List (IndexItem P S)) : Option (C.Index × SMap Bytes Bytes) :=
  (items.foldlM indexItem (JsPhrases.new C none, JsBuilder.new [])).bind fun st =>
    match jsPhraseFinish st.1 with
    | (ph, .returned map) =>
      match jsRenumber [map] st.2 with
      | (gb, true) =>
        match jsFinish o .none gb with
        | some (gb', true) => ph.disk.map fun ix => (ix, gb'.db)
        | _ => none
      | (_, false) => none
    | (_, .threw) => none

/-- The grids of the items a test chooses: nothing if it chooses none. -/
def gridsOf {C : PhraseCrate} {P : PhraseSerde C} {S : Serde}
    (items : List (IndexItem P S)) (test : IndexItem P S → Bool) :
    Option (List GridEntry) :=
  if items.any test then some ((items.filter test).flatMap fun it => it.grids) else none

end Carmen.Spec
