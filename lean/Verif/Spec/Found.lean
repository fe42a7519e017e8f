import Verif.Spec.Index
import Verif.Spec.NativeCoalesce
import Verif.Spec.Builder
import Verif.Spec.Query
import Verif.Spec.EndToEnd

/-!
# Specification: what a search in an index built from JavaScript should find
-/

namespace Carmen.Spec
variable {C : PhraseCrate} {P : PhraseSerde C} {S : Serde}

/-- The phrase of the item is one of those asked for. -/
def Wanted (ix : C.Index) (phrase : MatchPhrase) (it : IndexItem P S) : Prop :=
  ∃ n, InPhrase phrase n ∧ C.getByPhraseId ix n = some (some it.words)

open Classical in
/-- The items with a phrase that is asked for. -/
noncomputable def wanted (ix : C.Index) (phrase : MatchPhrase) (items : List (IndexItem P S)) :
    List (IndexItem P S) :=
  items.filter fun it => decide (Wanted ix phrase it)

/-- What should be reported for a grid of an item: the phrase is asked for, the tile is in the box. -/
def ItemHit (ix : C.Index) (items : List (IndexItem P S)) (opts : MatchOpts) (radius : F64)
    (key : MatchKey) (g : MatchEntry) : Prop :=
  ∃ it ∈ items, Wanted ix key.phrase it ∧ ∃ e ∈ it.grids, InBox opts (stored e) ∧
    g = report opts radius (langMatches key.langSet it.langSet) (stored e)

/-- A store opened from JavaScript on a database of grids, and the index of phrases that was built with
it. -/
structure Opened (T : SearchSerde) (items : List (IndexItem P S)) (ix : C.Index) (s : Store) :
    Prop where
  built : ∃ o db args, buildIndex o items = some (ix, db) ∧ SmallRecords db ∧
    jsOpen T db args = some s
  scores : ∀ it ∈ items, ∀ e ∈ it.grids, e.score ≤ 15
  radius : s.radius ≠ .nan
  zoom : s.zoom ≤ 16

/-! ## Several indexes -/

/-- What an index was built from. -/
structure Source {C : PhraseCrate} (P : PhraseSerde C) (S : Serde) where
  ix : C.Index
  items : List (IndexItem P S)

/-- The options a match key is looked up with: at the zoom of the index, and around the proximity point
if the match key says so. -/
def keyLookup (opts : MatchOpts) (q : Subquery) (kg : KeyWithId) : MatchOpts :=
  if kg.nearbyOnly then (opts.adjustToZoom q.store.zoom).withNearbyOnly
  else opts.adjustToZoom q.store.zoom

/-- The grid of the hit was indexed under a phrase that the match key asks for. -/
def Indexed (src : Subquery → Source P S) (opts : MatchOpts) (h : Hit) : Prop :=
  h.kg ∈ h.q.matchKeys ∧ ItemHit (src h.q).ix (src h.q).items (keyLookup opts h.q h.kg)
    h.q.store.radius h.kg.key h.grid

/-- At most 100000 items have a phrase that is asked for, and they have at most 100000 grids. -/
def FewGrids (src : Subquery → Source P S) (q : Subquery) : Prop :=
  ∀ kg ∈ q.matchKeys, (wanted (src q).ix kg.key.phrase (src q).items).length ≤ 100000 ∧
    ((wanted (src q).ix kg.key.phrase (src q).items).flatMap fun it => it.grids).length ≤ 100000

/-- Two hits for the same match key with the same tile and the same feature. -/
structure SamePlace (a b : Hit) : Prop where
  q : a.q = b.q
  kg : a.kg = b.kg
  x : a.grid.entry.x = b.grid.entry.x
  y : a.grid.entry.y = b.grid.entry.y
  id : a.grid.entry.id = b.grid.entry.id

/-- A request from JavaScript for stacks of phrase matches on indexes built from JavaScript: weights that
are finite and at most one, zooms that do not go down from type to type. -/
structure AnyRequest (T : SearchSerde) (src : Subquery → Source P S) (values : List JsValue)
    (qs : List Subquery) (o : JsValue) (opts : MatchOpts) : Prop where
  objects : List.Forall₂ (fun v q => ∃ k text, MatchObject T.toSerde v q k text) values qs
  opened : ∀ q ∈ qs, Opened T (src q).items (src q).ix q.store
  decoded : T.opts o = some opts
  zoom : opts.zoom ≤ 16
  weights : ∀ q ∈ qs, q.weight.IsFin ∧ q.weight ≤ 1
  delivered : Delivered qs
  zooms : ZoomsAscend qs

/-- The same with few stacks. -/
structure StackRequest (T : SearchSerde) (src : Subquery → Source P S) (values : List JsValue)
    (qs : List Subquery) (o : JsValue) (opts : MatchOpts) : Prop
    extends AnyRequest T src values qs o opts where
  few : FewGroupStacks 2000 qs

end Carmen.Spec
