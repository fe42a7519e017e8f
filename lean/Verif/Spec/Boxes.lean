import Verif.Spec.Exact

/-!
# What bounding boxes that do not contain everything cost
-/

namespace Carmen.Spec

/-- A bounding box of the index, rounded outwards to whole tiles of this zoom, contains the tile. -/
def Meets (s : Store) (zoom x y : ℕ) : Prop :=
  ∃ b ∈ s.bboxes, b.minX / 2 ^ (s.zoom - zoom) ≤ x ∧ x ≤ b.maxX / 2 ^ (s.zoom - zoom) ∧
    b.minY / 2 ^ (s.zoom - zoom) ≤ y ∧ y ≤ b.maxY / 2 ^ (s.zoom - zoom)

/-- Hits on phrase matches of the same weights, indexes and masks as these, whose tiles lie in each
other. -/
structure HitsOver (env : Env) (opts : MatchOpts) (pms above : List Subquery) (hs : List Hit) :
    Prop where
  keys : groupKeys (hs.map Hit.q) = groupKeys above
  mem : ∀ h ∈ hs, h.q ∈ pms
  answers : ∀ h ∈ hs, h.FirstAnswer env opts
  tiles : hs.IsChain fun a b => TileContains a.tile b.tile

/-- Nothing is cut off: for every phrase match of the stack below the first, there are hits on what is
above it that end in a tile a bounding box of its index meets. They need not be hits the phrase match
itself has anything in. -/
def NotCut (env : Env) (opts : MatchOpts) (pms qs : List Subquery) : Prop :=
  ∀ above q below, qs = above ++ q :: below → above ≠ [] →
    ∃ tops last, HitsOver env opts pms above (tops ++ [last]) ∧
      Meets q.store last.q.store.zoom last.grid.entry.x last.grid.entry.y

/-- Everything that is returned, whatever the bounding boxes say: what is put together from hits whose
tiles lie in each other on a stack that is not cut, and the contexts of phrase matches that stand
alone. -/
def IsReturned (env : Env) (opts : MatchOpts) (pms : List Subquery) (c : Context) : Prop :=
  (∃ hs, ¬ Lone pms hs ∧ NotCut env opts pms (hs.map Hit.q) ∧ ContextOf env opts pms hs c) ∨
    LoneResult env opts pms c

/-- The phrase match with other bounding boxes for its index. -/
def withBoxes (f : Store → List BBox) (q : Subquery) : Subquery :=
  { q with store := { q.store with bboxes := f q.store } }

/-- Every box of the index is in one of these. -/
def Widens (s : Store) (bs : List BBox) : Prop :=
  ∀ b ∈ s.bboxes, ∃ b' ∈ bs, b'.minX ≤ b.minX ∧ b'.minY ≤ b.minY ∧ b.maxX ≤ b'.maxX ∧
    b.maxY ≤ b'.maxY

/-- Hits that stack up on a stack that is not cut, whether bounding boxes contain them or not. -/
structure HitsGoThrough (env : Env) (opts : MatchOpts) (pms : List Subquery) (hs : List Hit) :
    Prop where
  ne : hs ≠ []
  notLone : ¬ Lone pms hs
  stack : IsStack pms (hs.map Hit.q)
  answers : ∀ h ∈ hs, h.FirstAnswer env opts
  tiles : hs.IsChain fun a b => TileContains a.tile b.tile
  notCut : NotCut env opts pms (hs.map Hit.q)

end Carmen.Spec
