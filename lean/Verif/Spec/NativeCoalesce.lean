import Verif.Spec.Failed
import Verif.Spec.NoPanic
import Verif.Model.NativeCoalesce

/-!
# Specification: searching from JavaScript
-/

namespace Carmen.Spec

/-- An object standing for a phrase match. -/
structure MatchObject (S : Serde) (v : JsValue) (q : Subquery) (k : KeyWithId) (text : String) :
    Prop where
  object : v.isObject = true
  store : v.prop "store" = .store q.store
  weight : S.float (v.prop "weight") = some q.weight
  mask : S.u32 (v.prop "mask") = some q.mask
  idx : S.u16 (v.prop "idx") = some q.idx
  nonOverlapping : S.u32s (v.prop "non_overlapping_indexes") = some q.nonOverlapping
  one : q.matchKeys = [k]
  keyObject : (v.prop "match_key").isObject = true
  matchPhrase : S.phrase ((v.prop "match_key").prop "match_phrase") = some k.key.phrase
  langs : LangsOf ((v.prop "match_key").prop "lang_set") k.key.langSet
  nearby : v.prop "nearby_only" = .undefined ∧ k.nearbyOnly = false ∨
    v.prop "nearby_only" = .bool k.nearbyOnly
  id : S.u32 (v.prop "id") = some k.id
  phrase : v.prop "phrase" = .str text
  length : k.phraseLength = text.utf8ByteSize

/-- A `GridStore` opened on a directory that a JavaScript builder filled, by any calls of which only
the last, `finish`, has to return; the records are below 4 GiB, the radius is a number and the zoom at
most 16. -/
structure JsIndex (S : SearchSerde) (s : Store) : Prop where
  written : ∃ o cs fault st oks args, (∀ c ∈ cs, NotFinish c) ∧
    JsBuilder.run S.toSerde o (.new []) (cs ++ [.finish fault]) = some (st, oks ++ [true]) ∧
    oks.length = cs.length ∧ SmallRecords st.db ∧ jsOpen S st.db args = some s
  radius : s.radius ≠ .nan
  zoom : s.zoom ≤ 16

/-- What the arguments of a search have to be for it to end: stores written from JavaScript, weights
that are finite and at most one, a zoom of at most 16. Nothing is asked of arguments that make the call
throw. -/
structure SearchArgs (S : SearchSerde) (args : List JsValue) : Prop where
  stores : ∀ items, args[0]? = some (.arr items) → ∀ v ∈ items, ∀ s, v.prop "store" = .store s →
    JsIndex S s
  weights : ∀ items, args[0]? = some (.arr items) → ∀ v ∈ items, ∀ w,
    S.float (v.prop "weight") = some w → w.IsFin ∧ w ≤ 1
  zoom : ∀ o, args[1]? = some o → ∀ opts, S.opts o = some opts → opts.zoom ≤ 16

end Carmen.Spec
