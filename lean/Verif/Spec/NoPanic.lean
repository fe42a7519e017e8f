import Verif.Props.Builder
import Verif.Props.Zoom
import Verif.Spec.Layout
import Verif.Spec.TreeCoalesce
import Verif.Spec.Query

/-!
# Requests the coalesce functions have to answer
-/

namespace Carmen.Spec

/-- An index whose rows follow the layout, as builders leave it in a directory (after any calls, whether
they returned errors or not, and whether `finish` ended or not), at a zoom up to 16, with a radius that
is a number. -/
structure StoreFit (s : Store) : Prop where
  built : LaidOut s.db
  radius : s.radius ≠ .nan
  zoom : s.zoom ≤ 16

/-- A match key: a phrase id of 32 bits. With overflow checks, not the largest id and no range that
ends before it starts. -/
structure KeyFit (chk : Bool) (k : KeyWithId) : Prop where
  start : k.key.phrase.start < 2 ^ 32
  largest : chk = true → k.key.phrase ≠ .exact (2 ^ 32 - 1)
  ordered : chk = true → ∀ a b, k.key.phrase = .range a b → a ≤ b

/-- A request. With overflow checks and debug assertions, the point and the box are inside the world
at the zoom of the request, the corners of the box are in order, and all zooms are at most 15. -/
structure RequestFit (chk : Bool) (pms : List Subquery) (opts : MatchOpts) : Prop where
  stores : ∀ q ∈ pms, StoreFit q.store
  some_key : ∀ q ∈ pms, q.matchKeys ≠ []
  keys : ∀ q ∈ pms, ∀ k ∈ q.matchKeys, KeyFit chk k
  wf : OptsWf opts
  zoom : opts.zoom ≤ 16
  box : BoxFit chk opts
  checked : chk = true → OptsAt opts ∧ opts.zoom ≤ 15 ∧ ∀ q ∈ pms, q.store.zoom ≤ 15

/-- What the tree needs in addition with overflow checks and debug assertions: higher types are not
at lower zooms, the bounding boxes of the indexes are inside the world, and if some match key is only
looked up near the point, the square around the point meets the box of the request, at the zoom of
every index. -/
def TreeFit (chk : Bool) (pms : List Subquery) (opts : MatchOpts) : Prop :=
  chk = true → ZoomsAscend pms ∧ (∀ q ∈ pms, ∀ b ∈ q.store.bboxes, BoxAt q.store.zoom b) ∧
    ∀ p ∈ pms, ∀ k ∈ p.matchKeys, k.nearbyOnly = true → ∀ q ∈ pms,
      BoxFit true (opts.adjustToZoom q.store.zoom).withNearbyOnly

end Carmen.Spec
