import Verif.Spec.Ground
import Verif.Spec.Layout

/-!
# Boxes that contain the same of what is stored
-/

namespace Carmen.Spec

/-- The tile in column `x` and row `y` is in a record of the store. -/
def StoredTile (db : SMap Bytes Bytes) (x y : ℕ) : Prop :=
  ∃ r ∈ db, r.1 ≠ "~BOUNDS".toList.map Char.toNat ∧ ∃ groups, Record r.2 groups ∧
    ∃ g ∈ groups, ∃ t ∈ g.2, IsTile t.1 x y

/-- The options are the same but for the box. -/
structure SameButBox (opts opts' : MatchOpts) : Prop where
  point : opts.proximity = opts'.proximity
  zoom : opts.zoom = opts'.zoom

/-- The boxes contain the same tiles of the store. No box is a box that contains everything. -/
def SameTiles (opts opts' : MatchOpts) (s : Store) : Prop :=
  ∀ x y, StoredTile s.db x y →
    ((∀ b, opts.bbox = some b → b.minX ≤ x ∧ x ≤ b.maxX ∧ b.minY ≤ y ∧ y ≤ b.maxY) ↔
      ∀ b, opts'.bbox = some b → b.minX ≤ x ∧ x ≤ b.maxX ∧ b.minY ≤ y ∧ y ≤ b.maxY)

/-- The boxes touch the same tiles of the store. -/
def SameGround (opts opts' : MatchOpts) (s : Store) : Prop :=
  ∀ x y, StoredTile s.db x y →
    ((∀ b, opts.bbox = some b → Touches s.zoom (x, y) opts.zoom b) ↔
      ∀ b, opts'.bbox = some b → Touches s.zoom (x, y) opts'.zoom b)

end Carmen.Spec
