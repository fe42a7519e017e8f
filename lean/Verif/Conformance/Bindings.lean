import Verif.Conformance.Coalesce
import Verif.Props.NativeCoalesce
import Verif.Model.NativeResults

/-!
# The model against tests/bindings/gridstore.js

The tests that call the bindings, run on the model (see `Verif.Conformance.Coalesce`). The bindings
are compiled without overflow checks. `bindingsSerde` decodes arguments as `serde` derives it for the
Rust types.

Left out: opening a directory that holds no database (gridstore.js:69, 9-18), which the model has no word
for, and the 5000 phrases of `Bin boundaries` (gridstore.js:378-482); C17 is that test for all inputs.
-/

namespace Carmen.Conformance
open Builder

/-! ## Decoding -/

/-- `MatchPhrase` (common.rs:47-51): `{Exact: id}` or `{Range: {start, end}}`. -/
def phraseValue : JsValue → Option MatchPhrase
  | .obj [("Exact", v)] => (natIn u32Max v).map .exact
  | .obj [("Range", v)] => do
    let a ← natIn u32Max (v.prop "start")
    let b ← natIn u32Max (v.prop "end")
    some (.range a b)
  | _ => none

/-- `[u16; 4]`. -/
def boxValue : JsValue → Option BBox
  | .arr [a, b, c, d] => do
    let a ← natIn 65535 a
    let b ← natIn 65535 b
    let c ← natIn 65535 c
    let d ← natIn 65535 d
    some ⟨a, b, c, d⟩
  | _ => none

/-- A field that may be missing. -/
def optional {α : Type} (f : JsValue → Option α) : JsValue → Option (Option α)
  | .undefined => some none
  | .null => some none
  | v => (f v).map some

theorem phraseValue_wf {v : JsValue} {p : MatchPhrase} (h : phraseValue v = some p) :
    p.start < 2 ^ 32 := by
  have h6 : u32Max < 2 ^ 32 := by decide
  unfold phraseValue at h
  split at h
  · obtain ⟨n, hn, rfl⟩ := Option.map_eq_some_iff.1 h
    exact lt_of_le_of_lt (natIn_le hn) h6
  · simp only [Option.bind_eq_bind, Option.bind_eq_some_iff] at h
    obtain ⟨a, ha, b, -, h⟩ := h
    cases h
    exact lt_of_le_of_lt (natIn_le ha) h6
  · cases h

theorem boxValue_wf {v : JsValue} {b : BBox} (h : boxValue v = some b) :
    b.minX < 2 ^ 16 ∧ b.minY < 2 ^ 16 ∧ b.maxX < 2 ^ 16 ∧ b.maxY < 2 ^ 16 := by
  unfold boxValue at h
  split at h
  · simp only [Option.bind_eq_bind, Option.bind_eq_some_iff] at h
    obtain ⟨a, ha, b, hb, c, hc, d, hd, h⟩ := h
    cases h
    have := natIn_le ha
    have := natIn_le hb
    have := natIn_le hc
    have := natIn_le hd
    refine ⟨?_, ?_, ?_, ?_⟩ <;> simp only <;> omega
  · cases h

theorem optional_mem {α : Type} {f : JsValue → Option α} {v : JsValue} {o : Option α} {a : α}
    (h : optional f v = some o) (ha : a ∈ o) : f v = some a := by
  unfold optional at h
  split at h
  · cases h; cases ha
  · cases h; cases ha
  · obtain ⟨b, hb, rfl⟩ := Option.map_eq_some_iff.1 h
    cases ha
    exact hb

/-- `MatchOpts` (common.rs:108-113). -/
def optsValue (v : JsValue) : Option MatchOpts := do
  let b ← optional boxValue (v.prop "bbox")
  let p ← optional plainTile (v.prop "proximity")
  let z ← natIn 65535 (v.prop "zoom")
  some ⟨b, p, z⟩

/-- `GridStoreOpts` (native/src/gridstore.rs:83-90). -/
def storeOptsValue (v : JsValue) : Option StoreOpts := do
  let z ← natIn 65535 (v.prop "zoom")
  let t ← natIn 65535 (v.prop "type_id")
  let r ← (v.prop "coalesce_radius").number
  let b ← plainList boxValue (v.prop "bboxes")
  let m ← (v.prop "max_score").number
  some ⟨z, t, r, b, m⟩

/-- The decoding. -/
def bindingsSerde : SearchSerde where
  toSerde := { plainSerde with phrase := phraseValue }
  opts := optsValue
  storeOpts := storeOptsValue
  phrase_wf _ _ h := phraseValue_wf h
  opts_wf v o h := by
    unfold optsValue at h
    simp only [Option.bind_eq_bind, Option.bind_eq_some_iff] at h
    obtain ⟨b, hb, p, hp, z, hz, h⟩ := h
    cases h
    refine ⟨by have := natIn_le hz; change z < _; omega, ?_, ?_⟩
    · intro t ht
      have h1 := optional_mem hp ht
      unfold plainTile at h1
      split at h1
      · simp only [Option.bind_eq_bind, Option.bind_eq_some_iff] at h1
        obtain ⟨x, hx, y, hy, h1⟩ := h1
        cases h1
        have := natIn_le hx
        have := natIn_le hy
        constructor <;> simp only <;> omega
      · cases h1
    · intro c hc
      exact boxValue_wf (optional_mem hb hc)

/-! ## Values -/

/-- A number. -/
def jnum (q : ℚ) : JsValue := .num (.fin q)

/-- A number as it is written in the test. -/
def jlit (q : ℚ) : JsValue := .num (lit q)

/-- An array of numbers. -/
def jnums (l : List ℕ) : JsValue := .arr (l.map fun (n : ℕ) => jnum n)

/-- An entry. -/
def jentry (id x y : ℕ) (relev : JsValue) (score : ℕ) : JsValue :=
  .obj [("id", jnum id), ("x", jnum x), ("y", jnum y), ("relev", relev), ("score", jnum score),
    ("source_phrase_hash", jnum 0)]

/-- What the calls of a test return (`false`: throws), and the database afterwards. -/
def calls (l : List JsCall) : Option (List Bool × SMap Bytes Bytes) :=
  (JsBuilder.run bindingsSerde.toSerde .id (.new []) l).map fun r => (r.2, r.1.db)

/-- A store on what these calls wrote. -/
def reader (l : List JsCall) (opts : List JsValue) : Option Store :=
  (calls l).bind fun r => jsOpen bindingsSerde r.2 (.str "dir" :: opts)

/-- `reader.get(key)`. -/
def read (s : Option Store) (k : JsValue) : Option (Option (List GridEntry)) :=
  s.bind fun s => (jsGet s [k]).bind fun
    | .returned r => some r
    | .threw => none

/-- All keys an iterator yields, each as its phrase id and the numbers in its language set. -/
def yielded : ℕ → List (Bytes × Bytes) → Option (List (Option F64 × List (Option F64)))
  | 0, _ => none
  | n + 1, rows => do
    let (rest, v) ← jsNext rows
    match v.prop "done" with
    | .bool true => some []
    | _ =>
      let k := v.prop "value"
      let langs := match k.prop "lang_set" with
        | .arr l => l.map JsValue.number
        | _ => []
      (yielded n rest).map (((k.prop "phrase_id").number, langs) :: ·)

/-- `Array.from(reader.keys())`. -/
def keysOf (s : Option Store) : Option (List (Option F64 × List (Option F64))) :=
  s.bind fun s => yielded 10 (jsKeys s)

/-- Whether the call throws. -/
def throws {α : Type} : JsReply α → Bool
  | .threw => true
  | _ => false

/-- What the callback gets. -/
def result : JsReply (Option (List Context)) → Option (List Context)
  | .returned r => r
  | .threw => none

/-- `coalesce`. -/
def bcoalesce (args : List JsValue) : JsReply (Option (List Context)) :=
  jsCoalesce bindingsSerde listEnv (fun _ => .id) args

/-! ## insert, append, compactAppend, finish (gridstore.js:20-88) -/

example : (calls [.insert [], .insert [.obj []]]).map Prod.fst = some [false, false] := by
  decide +kernel

/-- The builder of the test. -/
def insertTest : List JsCall :=
  [.insert [jsKey 0 [0], .arr [jentry 0 0 0 (jlit 0.5) 2]],
   .insert [jsKey 1 [0, 1, 2, 3], .arr [jentry 2 2 2 (jlit 0.6) 3]], .finish .none]

/-- A relevance of 0.5 is none of the four that are stored, and comes back as 1 (C01). -/
example : read (reader insertTest []) (jsKey 0 [0]) = some (some [⟨1, 2, 0, 0, 0, 0⟩]) := by
  decide +kernel

example : read (reader insertTest []) (jsKey 1 [0, 1, 2, 3]) =
    some (some [⟨lit 0.6, 3, 2, 2, 2, 0⟩]) := by decide +kernel

example : read (reader insertTest []) (jsKey 3 [3]) = some none := by decide +kernel

/-- The builder of the test. -/
def appendTest : List JsCall :=
  [.append [], .append [.obj []], .insert [jsKey 0 [0], .arr [jentry 0 0 0 (jlit 0.5) 2]],
   .append [jsKey 1 [0, 2], .arr [jentry 2 2 2 (jlit 0.8) 3]], .finish .none]

example : (calls appendTest).map Prod.fst = some [false, false, true, true, true] := by decide +kernel

example : keysOf (reader appendTest []) =
    some [(some 0, [some 0]), (some 1, [some 0, some (.fin 2)])] := by decide +kernel

/-- The builder of the test. -/
def compactTest : List JsCall :=
  [.insert [jsKey 0 [0], .arr [jentry 0 0 0 (jnum 1) 1]],
   .compactAppend [jsKey 0 [0], jnum 1, jnum 1, jnum 0, jnum 0, .arr [jnums [1, 1]]], .finish .none]

example : keysOf (reader compactTest []) = some [(some 0, [some 0])] := by decide +kernel

/-- Not in the test: both tiles of the feature are there. -/
example : read (reader compactTest []) (jsKey 0 [0]) =
    some (some [⟨1, 1, 1, 1, 0, 0⟩, ⟨1, 1, 0, 0, 0, 0⟩]) := by decide +kernel

/-- The builder of the test. -/
def readerTest : List JsCall :=
  [.insert [jsKey 0 [0], .arr [jentry 0 0 0 (jlit 0.5) 2]],
   .insert [jsKey 1 [0, 1, 2, 3], .arr [jentry 2 2 2 (jlit 0.8) 3]], .finish .none]

example : keysOf (reader readerTest []) = some [(some 0, [some 0]),
    (some 1, [some 0, some 1, some (.fin 2), some (.fin 3)])] := by decide +kernel

/-! ## Invalid inputs of coalesce (gridstore.js:90-217) -/

example : ∀ args ∈ [[], [.arr []], [.arr [], .obj []], [.arr [.obj []], .obj [], .func],
    [.arr [jnum (-1)], .obj [], .func], [.undefined, .obj [], .func], [.arr [], .obj [], .func],
    [.arr [.undefined], .obj [], .func], [.arr [.null], .obj [], .func]],
    throws (bcoalesce args) = true := by decide +kernel

/-- The store. -/
def invalidStore : JsValue :=
  ((reader [.insert [jsKey 1 [1], .arr [jentry 1 2 2 (jnum 1) 1]], .finish .none] []).map .store).getD
    .undefined

/-- `{Range: {start: 1, end: stop}}` in these languages. -/
def rangeKey (langs : List ℕ) (start stop : ℕ) : JsValue :=
  .obj [("lang_set", jnums langs),
    ("match_phrase", .obj [("Range", .obj [("start", jnum start), ("end", jnum stop)])])]

/-- The fields of the phrase matches of the test, and what is missing for one that is taken. -/
def invalidFields : List (String × JsValue) :=
  [("store", invalidStore), ("non_overlapping_indexes", .arr []), ("weight", jlit 0.5),
   ("match_key", rangeKey [0] 1 2), ("idx", jnum 2), ("zoom", jnum 6), ("mask", jnum 2),
   ("id", jnum 0), ("phrase", .str "hey")]

/-- With the options of the test every request throws, for want of a zoom. -/
example : throws (bcoalesce [.arr [.obj invalidFields], .obj [], .func]) = true := by decide +kernel

/-- What the test is after: with a zoom the request is taken, and without any of the fields it
throws. -/
example : throws (bcoalesce [.arr [.obj invalidFields], .obj [("zoom", jnum 6)], .func]) = false ∧
    ∀ f ∈ ["store", "non_overlapping_indexes", "weight", "match_key", "idx", "mask", "id", "phrase"],
      throws (bcoalesce [.arr [.obj (invalidFields.filter fun p => p.1 != f)],
        .obj [("zoom", jnum 6)], .func]) = true := by decide +kernel

/-- The zoom of a phrase match is not read. -/
example : throws (bcoalesce [.arr [.obj (invalidFields.filter fun p => p.1 != "zoom")],
    .obj [("zoom", jnum 6)], .func]) = false := by decide +kernel

/-! ## One phrase match (gridstore.js:219-270) -/

/-- `readerOpts`. -/
def readerOpts (zoom typeId : ℕ) : JsValue :=
  .obj [("idx", jnum 1), ("zoom", jnum zoom), ("non_overlapping_indexes", .arr []),
    ("type_id", jnum typeId), ("coalesce_radius", jnum 200),
    ("bboxes", .arr [jnums [0, 0, 2 ^ zoom - 1, 2 ^ zoom - 1]]), ("max_score", jnum 1)]

/-- A phrase match. -/
def jmatch (s : Option Store) (idx zoom mask id : ℕ) (weight : JsValue) (key : JsValue) : JsValue :=
  .obj [("store", (s.map .store).getD .undefined), ("non_overlapping_indexes", .arr []),
    ("weight", weight), ("match_key", key), ("idx", jnum idx), ("zoom", jnum zoom),
    ("mask", jnum mask), ("id", jnum id), ("phrase", .str "hey")]

/-- The store. -/
def singleStore : Option Store :=
  reader [.insert [jsKey 1 [1], .arr [jentry 1 2 2 (jnum 1) 1, jentry 2 2 0 (jnum 1) 1,
    jentry 3 0 0 (jnum 1) 1]], .finish .none] [readerOpts 14 0]

/-- The result. -/
def singleResult : Option (List Context) :=
  result (bcoalesce [.arr [jmatch singleStore 1 14 1 0 (jnum 1) (rangeKey [1] 1 3)],
    .obj [("zoom", jnum 14)], .func])

example : (singleResult.bind List.head?).map Context.entries =
    some [⟨⟨1, 1, 2, 2, 1, 0⟩, true, 1, 33554433, 1, 0, 1, 0⟩] := by decide +kernel

example : singleResult.map List.length = some 3 := by decide +kernel

/-! ## Two phrase matches (gridstore.js:272-338) -/

/-- The first store. -/
def multiStore1 : Option Store :=
  reader [.insert [jsKey 1 [1], .arr [jentry 1 1 1 (jnum 1) 1]], .finish .none] [readerOpts 1 0]

/-- The second store. -/
def multiStore2 : Option Store :=
  reader [.insert [jsKey 2 [1], .arr [jentry 1 1 1 (jnum 1) 3, jentry 2 2 2 (jnum 1) 3]],
    .finish .none] [readerOpts 2 1]

/-- The result. -/
def multiResult : Option (List Context) :=
  result (bcoalesce [.arr [jmatch multiStore1 0 1 2 0 (jlit 0.5) (rangeKey [1] 1 3),
    jmatch multiStore2 1 2 1 1 (jlit 0.5) (rangeKey [1] 1 3)], .obj [("zoom", jnum 2)], .func])

example : (multiResult.bind List.head?).map (fun c => (c.first.entry, c.entries.length)) =
    some (⟨lit 0.5, 3, 2, 2, 2, 0⟩, 2) := by decide +kernel

/-! ## Languages from 128 on (gridstore.js:340-376) -/

/-- The store. -/
def langStore : Option Store :=
  reader [.insert [jsKey 1 [1], .arr [jentry 1 2 2 (jnum 1) 1]], .finish .none] []

example : ((result (bcoalesce [.arr [jmatch langStore 1 6 1 0 (jnum 1) (rangeKey [128] 1 3)],
    .obj [("zoom", jnum 6)], .func])).bind List.head?).map
      (fun c => (c.first.matchesLanguage, c.relev)) = some (false, lit 0.96) := by decide +kernel

/-! ## stackable (gridstore.js:484-501) -/

example : throws (jsStackable bindingsSerde
    [.arr [jmatch singleStore 0 6 14 1 (jnum 1) (rangeKey [0] 0 3)]]) = false := by decide +kernel

end Carmen.Conformance
