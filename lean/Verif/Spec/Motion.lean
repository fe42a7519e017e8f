import Verif.Spec.Growth

/-!
# Specification: moving the map, and other ids
-/

namespace Carmen.Spec

/-- A coordinate is moved by a number, and maybe turned round first. -/
structure Axis where
  flip : Bool
  by' : ℤ

/-- Where the coordinate goes. -/
def Axis.at (a : Axis) (t : ℕ) : ℤ := if a.flip then a.by' - t else a.by' + t

/-- The map is moved, and maybe mirrored, turned by a multiple of a right angle, or both. -/
structure Motion where
  swap : Bool
  horiz : Axis
  vert : Axis

/-- Where the tile goes. -/
def Motion.move (m : Motion) (x y : ℕ) : ℤ × ℤ :=
  if m.swap then (m.horiz.at y, m.vert.at x) else (m.horiz.at x, m.vert.at y)

/-- The tile still has coordinates of 16 bits. -/
def Motion.Stays (m : Motion) (x y : ℕ) : Prop :=
  (0 ≤ (m.move x y).1 ∧ (m.move x y).1 < 2 ^ 16) ∧ 0 ≤ (m.move x y).2 ∧ (m.move x y).2 < 2 ^ 16

/-- The entry at its new tile. -/
def Motion.entry (m : Motion) (e : GridEntry) : GridEntry :=
  { e with x := (m.move e.x e.y).1.toNat, y := (m.move e.x e.y).2.toNat }

/-- The result at its new tile. -/
def Motion.result (m : Motion) (r : MatchEntry) : MatchEntry := { r with entry := m.entry r.entry }

/-- The content at its new tiles. -/
def Motion.content (m : Motion) (c : Content) : Content := fun k => (c k).map (List.map m.entry)

/-- The corners of the box that are the lower left and upper right ones after the motion. -/
def Motion.corners (m : Motion) (b : BBox) : (ℕ × ℕ) × (ℕ × ℕ) :=
  let fx := if m.swap then m.vert.flip else m.horiz.flip
  let fy := if m.swap then m.horiz.flip else m.vert.flip
  ((if fx then b.maxX else b.minX, if fy then b.maxY else b.minY),
    (if fx then b.minX else b.maxX, if fy then b.minY else b.maxY))

/-- The moved box. -/
def Motion.box (m : Motion) (b : BBox) : BBox :=
  let lo := m.move (m.corners b).1.1 (m.corners b).1.2
  let hi := m.move (m.corners b).2.1 (m.corners b).2.2
  ⟨lo.1.toNat, lo.2.toNat, hi.1.toNat, hi.2.toNat⟩

/-- The options with the box and the point moved. -/
def Motion.opts (m : Motion) (o : MatchOpts) : MatchOpts :=
  ⟨o.bbox.map m.box, o.proximity.map fun p => ((m.move p.1 p.2).1.toNat, (m.move p.1 p.2).2.toNat),
    o.zoom⟩

/-- Box and point stay on the map. -/
def Motion.StaysOpts (m : Motion) (o : MatchOpts) : Prop :=
  (∀ b, o.bbox = some b → m.Stays b.minX b.minY ∧ m.Stays b.maxX b.maxY) ∧
    ∀ p, o.proximity = some p → m.Stays p.1 p.2

/-- All that is in the content stays on the map. -/
def Motion.StaysContent (m : Motion) (c : Content) : Prop :=
  ∀ k es, c k = some es → ∀ e ∈ es, m.Stays e.x e.y

/-- The entry with other ids for its feature and source. -/
def relabel (f : ℕ → ℕ → ℕ × ℕ) (e : GridEntry) : GridEntry :=
  { e with id := (f e.id e.hash).1, hash := (f e.id e.hash).2 }

/-- The content with other ids. -/
def relabelled (f : ℕ → ℕ → ℕ × ℕ) (c : Content) : Content := fun k =>
  (c k).map (List.map (relabel f))

/-- The feature ids fit in the 24 bits kept of them, before and after. -/
def LabelsFit (f : ℕ → ℕ → ℕ × ℕ) (c : Content) : Prop :=
  ∀ k es e, c k = some es → e ∈ es → e.id < 2 ^ 24 ∧ (f e.id e.hash).1 < 2 ^ 24

end Carmen.Spec
