import Verif.Model.Native
import Verif.Model.TreeCoalesce

/-!
# Searching from JavaScript: native/src/gridstore.rs

The functions hand the work to another thread and call back with its result; a panic there ends the
process. Errors of the database, which are handed to the callback, are not modelled.
-/

namespace Carmen

/-- `GridStoreOpts` (gridstore.rs:83-90). -/
structure StoreOpts where
  zoom : ℕ
  typeId : ℕ
  radius : F64
  bboxes : List BBox
  maxScore : F64
  deriving DecidableEq

/-- What `neon_serde::from_value` makes of the options of a request and of a store. -/
structure SearchSerde extends Serde where
  opts : JsValue → Option MatchOpts
  storeOpts : JsValue → Option StoreOpts
  phrase_wf : ∀ v p, phrase v = some p → p.start < 2 ^ 32
  opts_wf : ∀ v o, opts v = some o → o.zoom < 2 ^ 16 ∧
    (∀ p ∈ o.proximity, p.1 < 2 ^ 16 ∧ p.2 < 2 ^ 16) ∧
    ∀ b ∈ o.bbox, b.minX < 2 ^ 16 ∧ b.minY < 2 ^ 16 ∧ b.maxX < 2 ^ 16 ∧ b.maxY < 2 ^ 16

/-- `init` of `GridStore` (gridstore.rs:298-322), on a directory with this content; `none` throws. An
argument that is there but `undefined` is decoded too. -/
def jsOpen (S : SearchSerde) (db : SMap Bytes Bytes) (args : List JsValue) : Option Store :=
  match (args[0]? : Option JsValue), (args[1]? : Option JsValue) with
  | some (.str _), some v => (S.storeOpts v).map fun o =>
      Store.openWith db o.zoom o.typeId o.radius o.bboxes o.maxScore
  | some (.str _), none => some (Store.new db)
  | _, _ => none

/-- The arguments of `coalesce` and `stackAndCoalesce` (gridstore.rs:467-479, 488-500); `none`
throws. -/
def requestArgs (S : SearchSerde) (args : List JsValue) : Option (List Subquery × MatchOpts) := do
  let v ← args[0]?
  let o ← args[1]?
  let qs ← phrasematchArgs S.toSerde v
  let opts ← S.opts o
  match (args[2]? : Option JsValue) with
  | some .func => some (qs, opts)
  | _ => none

/-- `js_coalesce` (gridstore.rs:466-485) and its task (gridstore.rs:18-46): it throws, or the callback
gets the result; `returned none` is a panic. -/
def jsCoalesce (S : SearchSerde) (env : Env) (os : ℕ → IterOrder) (args : List JsValue) :
    JsReply (Option (List Context)) :=
  match requestArgs S args with
  | none => .threw
  | some r => .returned (coalesce env os r.1 r.2)

/-- `js_stack_and_coalesce` (gridstore.rs:487-506) and its task (gridstore.rs:48-77). -/
def jsStackAndCoalesce (S : SearchSerde) (env : TreeEnv) (args : List JsValue) :
    JsReply (Option (List Context)) :=
  match requestArgs S args with
  | none => .threw
  | some r => .returned (stackAndCoalesce env r.1 r.2)

/-- `js_stackable` (gridstore.rs:574-585): the tree is thrown away; `returned none` is a panic. -/
def jsStackable (S : SearchSerde) (args : List JsValue) : JsReply (Option Unit) :=
  match args[0]?.bind (phrasematchArgs S.toSerde) with
  | none => .threw
  | some qs => .returned ((stackable qs).map fun _ => ())

end Carmen
