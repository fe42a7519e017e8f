import Verif.Spec.TreeCoalesce
import Mathlib.Data.List.Perm.Subperm

/-!
# What tree coalesce must not miss
-/

namespace Carmen.Spec

/-! ## Scans -/

/-- The scans a tree may need: every match key of every node that is still there. -/
def scansOf (t : StackTree) : List (Subquery × KeyWithId) :=
  (t.arena.nodes.filter fun n => n.2).flatMap fun n =>
    n.1.pm.toList.flatMap fun q => q.matchKeys.map fun kg => (q, kg)

/-- The scan is neither of one phrase nor of a range of at most two neighbouring ones. -/
def WideScan (s : Subquery × KeyWithId) : Prop :=
  ∃ first last, s.2.key.phrase = .range first last ∧ ¬ (first ≤ last ∧ last ≤ first + 1)

/-- Exactly one of the 32 tokens is covered. -/
def CoversOne (s : Subquery × KeyWithId) : Prop :=
  ∃ i < 32, ∀ j < 32, s.1.mask.testBit j = true ↔ j = i

/-- The scan is of an index of zoom 14 or more, and not limited to the surroundings. -/
def HighScan (s : Subquery × KeyWithId) : Prop := 14 ≤ s.1.store.zoom ∧ s.2.nearbyOnly = false

/-- None of the scans has to be left out: the quotas are enough for all of them, and wide scans
for one token are of indexes below zoom 14, where they are always considered worth it. -/
structure RoomFor (scans : List (Subquery × KeyWithId)) : Prop where
  worth : ∀ s ∈ scans, WideScan s → CoversOne s → s.1.store.zoom < 14
  letters : AtMost 8 (fun s => WideScan s ∧ CoversOne s ∧ s.2.phraseLength = 1) scans
  words : AtMost 40 (fun s => WideScan s ∧ CoversOne s) scans
  ranges : AtMost 40 (fun s => WideScan s ∧ HighScan s) scans
  highs : AtMost 600 HighScan scans

/-- None of the scans the tree may need has to be left out. -/
def RoomForAll (t : StackTree) : Prop := RoomFor (scansOf t)

/-- The quotas are enough for all scans. -/
structure RoomToTry (scans : List (Subquery × KeyWithId)) : Prop where
  letters : AtMost 8 (fun s => WideScan s ∧ CoversOne s ∧ s.2.phraseLength = 1) scans
  words : AtMost 40 (fun s => WideScan s ∧ CoversOne s) scans
  wordsHigh : AtMost 8 (fun s => WideScan s ∧ CoversOne s ∧ HighScan s) scans
  ranges : AtMost 40 (fun s => WideScan s ∧ HighScan s) scans
  highs : AtMost 600 HighScan scans

/-- Every quota this scan counts against is enough for all scans. What the scan does not count
against may be spent. -/
structure RoomToTryFor (scans : List (Subquery × KeyWithId)) (s : Subquery × KeyWithId) :
    Prop where
  letters : WideScan s → CoversOne s → s.2.phraseLength = 1 →
    AtMost 8 (fun s => WideScan s ∧ CoversOne s ∧ s.2.phraseLength = 1) scans
  words : WideScan s → CoversOne s → AtMost 40 (fun s => WideScan s ∧ CoversOne s) scans
  wordsHigh : WideScan s → CoversOne s → HighScan s →
    AtMost 8 (fun s => WideScan s ∧ CoversOne s ∧ HighScan s) scans
  ranges : WideScan s → HighScan s → AtMost 40 (fun s => WideScan s ∧ HighScan s) scans
  highs : HighScan s → AtMost 600 HighScan scans

/-- The quotas are enough for all scans the tree may need. -/
def RoomToTryAll (t : StackTree) : Prop := RoomToTry (scansOf t)

/-- A wide scan for one token in an index of zoom 14 or more. -/
def SlowScan (s : Subquery × KeyWithId) : Prop := WideScan s ∧ CoversOne s ∧ 14 ≤ s.1.store.zoom

/-! ## Stacks -/

/-- Some bounding box of the index contains the tile of the level. -/
def Level.InBoxes (l : Level) : Prop :=
  ∃ b ∈ l.q.store.bboxes, b.minX ≤ l.grid.entry.x ∧ l.grid.entry.x ≤ b.maxX ∧
    b.minY ≤ l.grid.entry.y ∧ l.grid.entry.y ≤ b.maxY

/-- Grids that stack up: one for each node of a path from the root, each tile in the one before. A
path of a single node without children is left out, that case has its own rules. -/
structure StacksUp (env : Env) (t : StackTree) (opts : MatchOpts) (ls : List Level) : Prop where
  ne : ls ≠ []
  notAlone : ¬ Alone ls
  path : TreePath t t.root (ls.map Level.node)
  answers : ∀ l ∈ ls, l.FirstAnswer env opts
  boxes : ∀ l ∈ ls, l.InBoxes
  tiles : ls.IsChain fun a b => TileContains a.tile b.tile

/-- `a` comes before `b`, or they tie: by relevance, then score-distance, then lower index, then
tile and feature. -/
def RanksBefore (a b : Context) : Prop :=
  b.relev < a.relev ∨ (b.relev = a.relev ∧
  (b.first.scoredist < a.first.scoredist ∨ (b.first.scoredist = a.first.scoredist ∧
  (a.first.idx < b.first.idx ∨ (a.first.idx = b.first.idx ∧
  (b.first.entry.x < a.first.entry.x ∨ (b.first.entry.x = a.first.entry.x ∧
  (b.first.entry.y < a.first.entry.y ∨ (b.first.entry.y = a.first.entry.y ∧
  b.first.entry.id ≤ a.first.entry.id)))))))))

/-- Weights are finite, representable and positive. -/
def WeightsPositive (pms : List Subquery) : Prop :=
  ∀ q ∈ pms, q.weight.IsFin ∧ q.weight.Valid ∧ 0 < q.weight

/-- The scan for the last level is slow, nothing comes below it, and there is a context with so much
more relevance that no context of this stack has more than three quarters of it. -/
def GivenUp (env : Env) (t : StackTree) (opts : MatchOpts) (ls : List Level)
    (cs : List Context) : Prop :=
  ∃ up l, ls = up ++ [l] ∧ SlowScan (l.q, l.kg) ∧ l.node.children = [] ∧
    ∃ b ∈ cs, ∀ c, StackedFrom env t opts ls c → c.relev ≤ lit 0.75 * b.relev

/-- Two stacks over the same nodes with the same match key for the last one. -/
def SameLastKey (ls ls' : List Level) : Prop :=
  ls.map Level.node = ls'.map Level.node ∧
    ls.getLast?.map Level.kg = ls'.getLast?.map Level.kg

/-- The stack goes on below one of these nodes. -/
def GoesBelow (few : List StackNode) (ls : List Level) : Prop :=
  ∃ above upper lower below, ls = above ++ upper :: lower :: below ∧ upper.node ∈ few

end Carmen.Spec
