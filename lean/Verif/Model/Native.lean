import Verif.Model.Builder
import Verif.Model.Store
import Verif.Model.Stack

/-!
# The JavaScript bindings: native/src/gridstore.rs, native/src/fuzzy_phrase.rs, index.js

Calls are sequential: JavaScript has one thread, and the bindings hold its lock. Property reads are
plain (a getter could run JavaScript in the middle of a call; that is not modelled). What
`neon_serde` makes of a JavaScript value is not in the repository: theorems hold for any decoding
whose results are in the range of the Rust types. Results given back through `neon_serde::to_value`
are the values themselves. Float to integer casts saturate, as Rust defines since version 1.45.
-/

namespace Carmen
open Builder

/-- JavaScript values, as far as the bindings tell them apart. `store` is a `GridStore` object. -/
inductive JsValue where
  | undefined
  | null
  | bool (b : Bool)
  | num (v : F64)
  | str (s : String)
  | arr (items : List JsValue)
  | obj (fields : List (String × JsValue))
  | buffer (bytes : List (Fin 256))
  | store (s : Store)
  | func

namespace JsValue

/-- `downcast::<JsObject>()` succeeds; arrays, buffers, class instances and functions
are objects too. -/
def isObject : JsValue → Bool
  | arr _ | obj _ | buffer _ | store _ | func => true
  | _ => false

/-- `get(cx, name)` of an object: `undefined` for a property that is not there. -/
def prop (name : String) : JsValue → JsValue
  | obj fields => ((fields.find? fun f => f.1 == name).map Prod.snd).getD undefined
  | _ => undefined

/-- `downcast::<JsNumber>().or_throw(cx)?.value()`; `none` throws. -/
def number : JsValue → Option F64
  | num v => some v
  | _ => none

end JsValue

/-- `v as u8`, `as u32`, `as usize`, where the type holds numbers up to `max`: NaN becomes 0, numbers
out of range the nearest in range, fractions are cut off. -/
def castTo (max : ℕ) : F64 → ℕ
  | .nan => 0
  | .inf neg => if neg then 0 else max
  | .fin q => min max ⌊q⌋.toNat

/-- `std::usize::MAX` (64 bits). -/
def usizeMax : ℕ := 2 ^ 64 - 1

/-! ## Language sets -/

/-- The loop of `langarray_to_langset` (gridstore.rs:432-441); `none` throws. -/
def langLoop : ℕ → List JsValue → Option ℕ
  | out, [] => some out
  | out, v :: t => do
    let n ← v.number
    let i := castTo usizeMax n
    if 128 ≤ i then langLoop out t else langLoop (out ||| (1 <<< i)) t

/-- `langarray_to_langset` (gridstore.rs:424-450); `none` throws. -/
def langSetOf : JsValue → Option ℕ
  | .arr items => langLoop 0 items
  | .null => some allLangs
  | .undefined => some allLangs
  | _ => none

/-- `langset_to_langarray` (gridstore.rs:452-464). -/
def langArrayOf (s : ℕ) : JsValue :=
  .arr (((List.range 128).filter fun j => s &&& (1 <<< j) != 0).map fun (j : ℕ) => .num (.fin j))

/-! ## Arguments -/

/-- What `neon_serde::from_value` makes of a value, for each Rust type it is asked for; `none` is an
error. -/
structure Serde where
  entries : JsValue → Option (List GridEntry)
  tiles : JsValue → Option (List (ℕ × ℕ))
  float : JsValue → Option F64
  u16 : JsValue → Option ℕ
  u32 : JsValue → Option ℕ
  u32s : JsValue → Option (List ℕ)
  phrase : JsValue → Option MatchPhrase
  entries_wf : ∀ v es, entries v = some es → ∀ e ∈ es, e.Wf
  tiles_wf : ∀ v ts, tiles v = some ts → ∀ t ∈ ts, t.1 < 2 ^ 16 ∧ t.2 < 2 ^ 16
  u16_wf : ∀ v n, u16 v = some n → n < 2 ^ 16
  u32_wf : ∀ v n, u32 v = some n → n < 2 ^ 32
  u32s_wf : ∀ v ns, u32s v = some ns → ∀ n ∈ ns, n < 2 ^ 32

/-- The key in the first argument (gridstore.rs:162-175, 325-339, 590, 593-599); `none` throws. -/
def keyArg (v : JsValue) : Option GridKey :=
  if v.isObject then do
    let p ← (v.prop "phrase_id").number
    let l ← langSetOf (v.prop "lang_set")
    some ⟨castTo u32Max p, l⟩
  else none

/-- `prep_for_insert` (gridstore.rs:587-602); a missing argument throws. -/
def prepForInsert (S : Serde) (args : List JsValue) : Option (GridKey × List GridEntry) := do
  let v ← args[0]?
  let e ← args[1]?
  let es ← S.entries e
  let k ← keyArg v
  some (k, es)

/-- `cx.argument::<JsNumber>(i)?.value()`. -/
def numArg (args : List JsValue) (i : ℕ) : Option F64 := args[i]?.bind JsValue.number

/-- `cx.argument::<JsArrayBuffer>(0)?` read with `as_slice::<u32>()` (gridstore.rs:209, 217, 242, 250):
little endian, an incomplete last item is left out. -/
def bufferArg (args : List JsValue) : Option (List ℕ) :=
  match (args[0]? : Option JsValue) with
  | some (JsValue.buffer b) => some (Store.decodeBounds (b.map Fin.val))
  | _ => none

/-! ## The builder -/

/-- A `GridStoreBuilder` object (gridstore.rs:92) and the database at its path. -/
structure JsBuilder where
  inner : Option Builder
  db : SMap Bytes Bytes

/-- `init` (gridstore.rs:93-99). -/
def JsBuilder.new (db : SMap Bytes Bytes) : JsBuilder := ⟨some Builder.new, db⟩

/-- `match gridstore.as_mut()` (gridstore.rs:111-121 and in every other method); the flag is false
when the call throws. -/
def JsBuilder.modify (st : JsBuilder) (f : Builder → Builder × Bool) : JsBuilder × Bool :=
  match st.inner with
  | some b => let r := f b; ({ st with inner := some r.1 }, r.2)
  | none => (st, false)

/-- `insert` (gridstore.rs:101-129). -/
def jsInsert (S : Serde) (args : List JsValue) (st : JsBuilder) : JsBuilder × Bool :=
  match prepForInsert S args with
  | none => (st, false)
  | some (k, es) => st.modify fun b => (b.insert k es, true)

/-- `append` (gridstore.rs:131-159). -/
def jsAppend (S : Serde) (args : List JsValue) (st : JsBuilder) : JsBuilder × Bool :=
  match prepForInsert S args with
  | none => (st, false)
  | some (k, es) => st.modify fun b => (b.append k es, true)

/-- The arguments of `compactAppend` (gridstore.rs:162-186). -/
def compactArgs (S : Serde) (args : List JsValue) :
    Option (GridKey × F64 × ℕ × ℕ × ℕ × List (ℕ × ℕ)) := do
  let v ← args[0]?
  let k ← keyArg v
  let relev ← numArg args 1
  let score ← numArg args 2
  let id ← numArg args 3
  let hash ← numArg args 4
  let t ← args[5]?
  let tiles ← S.tiles t
  some (k, relev, castTo 255 score, castTo u32Max id, castTo 255 hash, tiles)

/-- `compactAppend` (gridstore.rs:161-206). -/
def jsCompactAppend (S : Serde) (args : List JsValue) (st : JsBuilder) : JsBuilder × Bool :=
  match compactArgs S args with
  | none => (st, false)
  | some (k, relev, score, id, hash, tiles) =>
    st.modify fun b => (b.compactAppend k relev score id hash tiles, true)

/-- `renumber` (gridstore.rs:208-239). -/
def jsRenumber (args : List JsValue) (st : JsBuilder) : JsBuilder × Bool :=
  match bufferArg args with
  | none => (st, false)
  | some ids => st.modify fun b =>
      let r := b.renumber ids
      (r.1, match r.2 with
        | .ok _ => true
        | .error _ => false)

/-- `loadBinBoundaries` (gridstore.rs:241-272). -/
def jsLoadBinBoundaries (args : List JsValue) (st : JsBuilder) : JsBuilder × Bool :=
  match bufferArg args with
  | none => (st, false)
  | some ids => st.modify fun b => (b.loadBinBoundaries ids, true)

/-- What RocksDB does during `finish`: everything works, opening the database fails, or some put
fails after `n` have worked. -/
inductive DbFault where
  | none
  | onOpen
  | onPut (n : ℕ)

/-- `finish` (gridstore.rs:274-294): the builder is taken out before anything else happens. The outer
`none`: the call never returns. -/
def jsFinish (o : IterOrder) (fault : DbFault) (st : JsBuilder) : Option (JsBuilder × Bool) :=
  match st.inner with
  | none => some (st, false)
  | some b =>
    match fault with
    | .onOpen => some (⟨none, st.db⟩, false)
    | .onPut n =>
      if n < (finishPuts o b).1.length then
        some (⟨none, applyPuts st.db ((finishPuts o b).1.take n)⟩, false)
      else (finishInto o st.db b).map fun db => (⟨none, db⟩, true)
    | .none => (finishInto o st.db b).map fun db => (⟨none, db⟩, true)

/-- The calls on a builder object. -/
inductive JsCall where
  | insert (args : List JsValue)
  | append (args : List JsValue)
  | compactAppend (args : List JsValue)
  | renumber (args : List JsValue)
  | loadBinBoundaries (args : List JsValue)
  | finish (fault : DbFault)

/-- One call: the object afterwards and whether it returned (`false`: it threw). -/
def JsBuilder.step (S : Serde) (o : IterOrder) (st : JsBuilder) : JsCall → Option (JsBuilder × Bool)
  | .insert args => some (jsInsert S args st)
  | .append args => some (jsAppend S args st)
  | .compactAppend args => some (jsCompactAppend S args st)
  | .renumber args => some (jsRenumber args st)
  | .loadBinBoundaries args => some (jsLoadBinBoundaries args st)
  | .finish fault => jsFinish o fault st

/-- A sequence of calls: the object afterwards and what each call did. -/
def JsBuilder.run (S : Serde) (o : IterOrder) : JsBuilder → List JsCall →
    Option (JsBuilder × List Bool)
  | st, [] => some (st, [])
  | st, c :: t => do
    let r ← st.step S o c
    let r' ← JsBuilder.run S o r.1 t
    some (r'.1, r.2 :: r'.2)

/-! ## The store -/

/-- What a call gives back. -/
inductive JsReply (α : Type) where
  | returned (a : α)
  | threw

/-- `get` (gridstore.rs:324-356); the outer `none` is a panic, `returned none` is `undefined`. -/
def jsGet (s : Store) (args : List JsValue) : Option (JsReply (Option (List GridEntry))) :=
  match args[0]?.bind keyArg with
  | none => some .threw
  | some k => (s.get k).map .returned

/-- A key as a JavaScript object (gridstore.rs:398-407). -/
def keyObject (k : GridKey) : JsValue :=
  .obj [("phrase_id", .num (.fin k.phraseId)), ("lang_set", langArrayOf k.langSet)]

/-- `next` (gridstore.rs:377-420) with the rows still to come; `none` is a panic. Errors of the
database are not modelled. -/
def jsNext : List (Bytes × Bytes) → Option (List (Bytes × Bytes) × JsValue)
  | [] => some ([], .obj [("done", .bool true)])
  | r :: t => do
    let k ← Store.decodeKey r.1
    some (t, .obj [("done", .bool false), ("value", keyObject k)])

/-- The iterator of `keys()` (gridstore.rs:358-375, index.js:4-8). -/
def jsKeys (s : Store) : List (Bytes × Bytes) := s.phraseRows

/-! ## Phrase matches -/

/-- `nearby_only` (gridstore.rs:539-544). -/
def nearbyArg : JsValue → Option Bool
  | .undefined => some false
  | .bool b => some b
  | _ => none

/-- `store` (gridstore.rs:518-523); only a `GridStore` object is accepted. -/
def storeArg : JsValue → Option Store
  | .store s => some s
  | _ => none

/-- The length of `phrase` (gridstore.rs:553-557), in bytes of UTF-8. -/
def phraseLengthArg : JsValue → Option ℕ
  | .str s => some s.utf8ByteSize
  | _ => none

/-- The language set of `match_key` (gridstore.rs:528-532). -/
def matchLangArg (mk : JsValue) : Option ℕ :=
  if mk.isObject then langSetOf (mk.prop "lang_set") else none

/-- One phrase match (gridstore.rs:516-569); `none` throws. -/
def phrasematchArg (S : Serde) (v : JsValue) : Option Subquery :=
  if v.isObject then do
    let store ← storeArg (v.prop "store")
    let mk := v.prop "match_key"
    let langs ← matchLangArg mk
    let nearby ← nearbyArg (v.prop "nearby_only")
    let non ← S.u32s (v.prop "non_overlapping_indexes")
    let len ← phraseLengthArg (v.prop "phrase")
    let weight ← S.float (v.prop "weight")
    let phrase ← S.phrase (mk.prop "match_phrase")
    let id ← S.u32 (v.prop "id")
    let mask ← S.u32 (v.prop "mask")
    let idx ← S.u16 (v.prop "idx")
    some ⟨store, idx, non, weight, mask, [⟨⟨phrase, langs⟩, nearby, id, len⟩]⟩
  else none

/-- `deserialize_phrasesubq` (gridstore.rs:506-572); `none` throws. -/
def phrasematchArgs (S : Serde) : JsValue → Option (List Subquery)
  | .arr items => items.mapM (phrasematchArg S)
  | _ => none

/-! ## Buffers made by the phrase index -/

/-- The bytes of an `ArrayBuffer` filled through `as_mut_slice::<u32>()`
(fuzzy_phrase.rs:86-96, 287-295). -/
def bufferOf (ids : List ℕ) : JsValue := .buffer ((ids.flatMap (leBytes 4)).map (Fin.ofNat 256))

/-- The ids of `getPrefixBins` (fuzzy_phrase.rs:280-285) for the bins (first and last phrase id) found
by the crate `fuzzy-phrase`; the addition wraps. -/
def prefixBinIds (bins : List (ℕ × ℕ)) : List ℕ :=
  bins.map (fun b => b.1 % 2 ^ 32) ++
    (match bins.getLast? with
      | none => []
      | some b => [(b.2 % 2 ^ 32 + 1) % 2 ^ 32])

end Carmen
