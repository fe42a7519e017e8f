import Verif.Model.NativeCoalesce

/-!
# What JavaScript gets: `neon_serde::to_value` of results

`to_value` (neon-serde, not in the repository) makes an array of a vector, an object with the fields in
order of a struct, a number of an integer or float and a boolean of a boolean. Integers are converted
to floats.
-/

namespace Carmen

/-- An integer as a JavaScript number. -/
def intValue (n : ℕ) : JsValue := .num (F64.ofNat n)

/-- A `GridEntry` (common.rs:378-388) as an object. -/
def entryValue (e : GridEntry) : JsValue :=
  .obj [("relev", .num e.relev), ("score", intValue e.score), ("x", intValue e.x),
    ("y", intValue e.y), ("id", intValue e.id), ("source_phrase_hash", intValue e.hash)]

/-- A vector of entries. -/
def entriesValue (es : List GridEntry) : JsValue := .arr (es.map entryValue)

/-- A `CoalesceEntry` (common.rs:398-408) as an object. -/
def coalesceEntryValue (e : CoalesceEntry) : JsValue :=
  .obj [("grid_entry", entryValue e.entry), ("matches_language", .bool e.matchesLanguage),
    ("idx", intValue e.idx), ("tmp_id", intValue e.tmpId), ("mask", intValue e.mask),
    ("distance", .num e.distance), ("scoredist", .num e.scoredist),
    ("phrasematch_id", intValue e.phrasematchId)]

/-- A `CoalesceContext` (common.rs:410-415) as an object. -/
def contextValue (c : Context) : JsValue :=
  .obj [("mask", intValue c.mask), ("relev", .num c.relev),
    ("entries", .arr (c.entries.map coalesceEntryValue))]

/-- The result of a search (gridstore.rs:42-45, 73-76). -/
def resultsValue (out : List Context) : JsValue := .arr (out.map contextValue)

/-- What `get` returns (gridstore.rs:350-353). -/
def getValue : Option (List GridEntry) → JsValue
  | some es => entriesValue es
  | none => .undefined

/-- `get` with its result as JavaScript sees it (gridstore.rs:324-356). -/
def jsGetValue (s : Store) (args : List JsValue) : Option (JsReply JsValue) :=
  (jsGet s args).map fun
    | .returned r => .returned (getValue r)
    | .threw => .threw

end Carmen
