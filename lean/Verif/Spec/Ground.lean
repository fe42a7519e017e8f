import Verif.Model.Coalesce
import Verif.Spec.Coalesce

/-!
# Where the results of a search may lie

The whole map is the unit square; at zoom `z` it is cut into `2^z` by `2^z` tiles.
-/

namespace Carmen.Spec

/-- The point `(u, v)` of the map lies in the tile `t` of zoom `z`. -/
def InTile (z : ℕ) (t : ℕ × ℕ) (u v : ℚ) : Prop :=
  t.1 ≤ u * 2 ^ z ∧ u * 2 ^ z < t.1 + 1 ∧ t.2 ≤ v * 2 ^ z ∧ v * 2 ^ z < t.2 + 1

/-- The point `(u, v)` of the map lies in the box `b` of tiles of zoom `z`. -/
def InArea (z : ℕ) (b : BBox) (u v : ℚ) : Prop :=
  b.minX ≤ u * 2 ^ z ∧ u * 2 ^ z < b.maxX + 1 ∧ b.minY ≤ v * 2 ^ z ∧ v * 2 ^ z < b.maxY + 1

/-- The tile `t` of zoom `z` and the box `b` of zoom `z'` have ground in common. -/
def Touches (z : ℕ) (t : ℕ × ℕ) (z' : ℕ) (b : BBox) : Prop :=
  ∃ u v, InTile z t u v ∧ InArea z' b u v

/-- The tile `t` of zoom `z` lies within the box `b` of zoom `z'`. -/
def Within (z : ℕ) (t : ℕ × ℕ) (z' : ℕ) (b : BBox) : Prop :=
  ∀ u v, InTile z t u v → InArea z' b u v

/-- The tile of zoom `z'` that stands for the tile `p` of zoom `z`: the one it lies in, or the one up
and left of its middle. -/
def pointAt (z : ℕ) (p : ℕ × ℕ) (z' : ℕ) : ℕ × ℕ :=
  if z' ≤ z then (p.1 / 2 ^ (z - z'), p.2 / 2 ^ (z - z'))
  else (p.1 * 2 ^ (z' - z) + 2 ^ (z' - z - 1) - 1, p.2 * 2 ^ (z' - z) + 2 ^ (z' - z - 1) - 1)

/-- A result of the index keeps to the box of the request, and its distances are measured from the
point of the request. -/
structure KeepsTo (opts : MatchOpts) (s : Store) (e : CoalesceEntry) : Prop where
  touches : ∀ b, opts.bbox = some b → Touches s.zoom (e.entry.x, e.entry.y) opts.zoom b
  within : ∀ b, opts.bbox = some b → opts.zoom ≤ s.zoom →
    Within s.zoom (e.entry.x, e.entry.y) opts.zoom b
  point : ∀ p, opts.proximity = some p →
    e.distance = tileDist (pointAt opts.zoom p s.zoom).1 (pointAt opts.zoom p s.zoom).2 e.entry.x
      e.entry.y ∧
    e.scoredist = scoredist s.zoom e.distance e.entry.score s.radius
  noPoint : opts.proximity = none → e.distance = 0 ∧ e.scoredist = F64.ofNat e.entry.score

/-- The result lies in the square of `n` tiles to each side of the point of the request. -/
def NearPoint (n : ℕ) (opts : MatchOpts) (s : Store) (e : CoalesceEntry) : Prop :=
  ∀ p, opts.proximity = some p →
    let p' := pointAt opts.zoom p s.zoom
    e.entry.x ≤ p'.1 + n ∧ p'.1 ≤ e.entry.x + n ∧ e.entry.y ≤ p'.2 + n ∧ p'.2 ≤ e.entry.y + n

/-- A request whose box and point are valid at its zoom, and the box not empty. -/
structure SoundOpts (opts : MatchOpts) : Prop where
  zoom : opts.zoom ≤ 16
  point : ∀ p, opts.proximity = some p → p.1 < 2 ^ opts.zoom ∧ p.2 < 2 ^ opts.zoom
  box : ∀ b, opts.bbox = some b →
    b.minX ≤ b.maxX ∧ b.maxX < 2 ^ opts.zoom ∧ b.minY ≤ b.maxY ∧ b.maxY < 2 ^ opts.zoom

/-- An index at zoom 16 or below, and less than 16 levels from the zoom of the request. -/
def ZoomFits (opts : MatchOpts) (s : Store) : Prop :=
  s.zoom ≤ 16 ∧ opts.zoom < s.zoom + 16 ∧ s.zoom < opts.zoom + 16

end Carmen.Spec
