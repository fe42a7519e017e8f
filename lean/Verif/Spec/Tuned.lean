import Verif.Spec.Boxes

/-!
# Specification: indexes opened with other settings
-/

namespace Carmen.Spec

/-- What an index is opened with, but for its zoom and type. -/
structure Settings where
  radius : F64
  maxScore : F64
  bboxes : List BBox

/-- The phrase match, where the index has the settings `f` gives for it. -/
def tuned (f : Store → Settings) (q : Subquery) : Subquery :=
  { q with store := { q.store with
    radius := (f q.store).radius, maxScore := (f q.store).maxScore, bboxes := (f q.store).bboxes } }

/-- The search is not from a point, or the indexes keep their radiuses. -/
def RadiusIdle (f : Store → Settings) (opts : MatchOpts) (qs : List Subquery) : Prop :=
  opts.proximity = none ∨ ∀ q ∈ qs, (f q.store).radius = q.store.radius

/-- The tile is in one of the boxes. -/
def InRegion (bs : List BBox) (x y : ℕ) : Prop :=
  ∃ b ∈ bs, b.minX ≤ x ∧ x ≤ b.maxX ∧ b.minY ≤ y ∧ y ≤ b.maxY

/-- The boxes are not turned around. -/
def ProperBoxes (bs : List BBox) : Prop := ∀ b ∈ bs, b.minX ≤ b.maxX ∧ b.minY ≤ b.maxY

/-- These boxes cover the same tiles as those of the index. -/
structure SameRegion (s : Store) (bs : List BBox) : Prop where
  proper : ProperBoxes s.bboxes
  proper' : ProperBoxes bs
  same : ∀ x y, InRegion bs x y ↔ InRegion s.bboxes x y

end Carmen.Spec
