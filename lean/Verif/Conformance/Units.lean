import Verif.Conformance.Store
import Verif.Model.SpatialReads

/-!
# The model against the unit tests of the other modules

See `Verif.Conformance.Coalesce`.
-/

namespace Carmen.Conformance
open Format Builder

/-- Tiles without ids (`encoded_val_generator`, spatial.rs:190-214). -/
def tiles (cs : List ℕ) : List Coord := cs.map fun c => ⟨c, 0⟩

/-- The tiles found, with all reads checked. -/
def found (r : Option (Option (List Coord))) : Option (Option (List ℕ)) :=
  r.map (·.map (·.map Coord.coord))

/-! ## filter_bbox (spatial.rs:231-296) -/

example : found (bboxFilterReads (tiles []) ⟨0, 0, 0, 0⟩) = some none ∧
    found (bboxFilterReads (tiles [3, 2, 1, 0]) ⟨0, 0, 1, 1⟩) = some (some [3, 2, 1, 0]) ∧
    found (bboxFilterReads (tiles [3, 2]) ⟨0, 0, 1, 1⟩) = some (some [3, 2]) ∧
    found (bboxFilterReads (tiles [3, 2]) ⟨1, 1, 3, 1⟩) = some (some [3]) ∧
    found (bboxFilterReads (tiles [3, 2, 1]) ⟨0, 1, 1, 1⟩) = some (some [3, 2]) ∧
    found (bboxFilterReads (tiles [6, 5]) ⟨0, 0, 0, 1⟩) = some none ∧
    found (bboxFilterReads (tiles [6, 5]) ⟨4, 0, 4, 1⟩) = some none ∧
    found (bboxFilterReads (tiles [24, 7]) ⟨3, 1, 4, 2⟩) = some (some [24, 7]) ∧
    found (bboxFilterReads (tiles ((List.range' 7 17).reverse)) ⟨3, 1, 4, 2⟩) =
      some (some [18, 13, 7]) ∧
    found (bboxFilterReads (tiles [8]) ⟨3, 1, 4, 2⟩) = some (some []) := by decide +kernel

/-! ## proximity_search (spatial.rs:298-341) -/

example : found (proximityReads (tiles [9, 8, 7, 6, 5, 4, 3, 2, 1]) (3, 0)) =
      some (some [5, 4, 6, 3, 7, 2, 8, 1, 9]) ∧
    found (proximityReads (tiles [9, 8, 7, 6, 5, 4, 3, 2, 1]) (0, 3)) =
      some (some [9, 8, 7, 6, 5, 4, 3, 2, 1]) ∧
    found (proximityReads (tiles [9, 8, 7, 6, 5, 4, 3, 2, 1]) (1, 0)) =
      some (some [1, 2, 3, 4, 5, 6, 7, 8, 9]) ∧
    found (proximityReads (tiles []) (3, 0)) = some none ∧
    found (proximityReads (tiles [24, 21, 13, 8, 7, 6, 1]) (3, 1)) =
      some (some [7, 6, 8, 1, 13, 21, 24]) := by decide +kernel

/-! ## bbox_proximity_search (spatial.rs:343-402) -/

example : found (bboxProximityReads (tiles [9, 8, 7, 6, 5, 4, 3, 2, 1]) ⟨1, 0, 3, 1⟩ (2, 0)) =
      some (some [4, 3, 5, 6, 1, 7]) ∧
    found (bboxProximityReads (tiles [9, 8, 7, 6, 5, 4, 3, 2, 1]) ⟨6, 4, 7, 5⟩ (2, 0)) =
      some none ∧
    found (bboxProximityReads (tiles [9, 8, 7, 6, 5, 4, 3, 2, 1]) ⟨1, 0, 3, 1⟩ (0, 0)) =
      some (some [1, 3, 4, 5, 6, 7]) ∧
    found (bboxProximityReads (tiles [4, 3, 2]) ⟨1, 1, 3, 1⟩ (0, 0)) = some (some [3]) ∧
    found (bboxProximityReads (tiles [24, 23, 13, 8, 7, 6, 1]) ⟨3, 1, 7, 1⟩ (3, 1)) =
      some (some [7, 23]) := by decide +kernel

/-! ## binary_search (spatial.rs:404-455) -/

example : [(0, 0), (1, 0)].map (fun p => coordSearch (tiles []) p.1 p.2) = [none, none] ∧
    [(0, 0), (1, 0)].map (fun p => coordSearch (tiles [0]) p.1 p.2) = [some 0, some 0] ∧
    [(0, 0), (4, 0), (4, 1), (5, 0), (6, 0), (7, 0), (7, 3), (7, 4), (8, 0)].map
      (fun p => coordSearch (tiles [7, 6, 5, 4]) p.1 p.2) =
      [some 3, some 3, some 3, some 2, some 1, some 0, some 3, none, some 0] ∧
    [(0, 0), (1, 0), (1, 1), (2, 0), (3, 0), (4, 0), (5, 0), (7, 0), (7, 3), (7, 4), (8, 0)].map
      (fun p => coordSearch (tiles [7, 4, 2, 1]) p.1 p.2) =
      [some 3, some 3, some 3, some 2, some 2, some 1, some 1, some 0, some 3, none, some 0] := by
  decide +kernel

/-! ## tile_dist_test, tiles_per_mile_by_zoom_test, proximity_radius_test, scoredist_test
(spatial.rs:465-483, 522-535, 545-564, 638-642) -/

example : tileDist 1 1 1 1 = 0 ∧ tileDist 1 1 1 0 = 1 ∧
    tileDist 1 1 0 0 = lit 1.4142135623730951 := by decide +kernel

example : tilesPerMile 14 = lit 0.8 ∧ tilesPerMile 16 = lit 1.8000000000000003 ∧
    tilesPerMile 6 = lit 0.031214753848498707 := by decide +kernel

example : proximityRadius 14 (.fin 400) = .fin 320 ∧
    proximityRadius 16 (.fin 400) = lit 720.0000000000001 ∧ proximityRadius 6 0 = 0 ∧
    proximityRadius 6 (.fin 40) = lit 1.2485901539399482 ∧
    proximityRadius 17 (.fin 400) = .fin 1080 := by decide +kernel

example : scoredist 14 1 0 (.fin 400) = lit 321.7508133738646 ∧
    scoredist 14 0 0 (.fin 400) = lit 402.1885167173308 := by decide +kernel

/-! ## adjust_to_zoom_test_proximity, adjust_to_zoom_text_bbox (common.rs:199-330) -/

example : (⟨none, some (2, 28), 14⟩ : MatchOpts).adjustToZoomChecked 6 =
      some ⟨none, some (0, 0), 6⟩ ∧
    (⟨none, some (11, 25), 6⟩ : MatchOpts).adjustToZoomChecked 8 =
      some ⟨none, some (45, 101), 8⟩ ∧
    [4, 3, 2, 5, 6, 7].map (fun z => (⟨none, some (6, 6), 4⟩ : MatchOpts).adjustToZoomChecked z) =
      [some ⟨none, some (6, 6), 4⟩, some ⟨none, some (3, 3), 3⟩, some ⟨none, some (1, 1), 2⟩,
       some ⟨none, some (12, 12), 5⟩, some ⟨none, some (25, 25), 6⟩,
       some ⟨none, some (51, 51), 7⟩] := by decide +kernel

example : (⟨some ⟨32760, 32758, 32767, 32714⟩, none, 15⟩ : MatchOpts).adjustToZoomChecked 16 =
      some ⟨some ⟨65520, 65516, 65535, 65429⟩, none, 16⟩ ∧
    (⟨some ⟨6, 4, 7, 5⟩, none, 4⟩ : MatchOpts).adjustToZoomChecked 3 =
      some ⟨some ⟨3, 2, 3, 2⟩, none, 3⟩ ∧
    (⟨some ⟨3, 2, 3, 2⟩, none, 3⟩ : MatchOpts).adjustToZoomChecked 4 =
      some ⟨some ⟨6, 4, 7, 5⟩, none, 4⟩ ∧
    (⟨some ⟨6, 5, 7, 6⟩, none, 4⟩ : MatchOpts).adjustToZoomChecked 3 =
      some ⟨some ⟨3, 2, 3, 3⟩, none, 3⟩ ∧
    (⟨some ⟨3, 2, 3, 3⟩, none, 3⟩ : MatchOpts).adjustToZoomChecked 4 =
      some ⟨some ⟨6, 4, 7, 7⟩, none, 4⟩ ∧
    (⟨some ⟨3, 3, 3, 3⟩, none, 3⟩ : MatchOpts).adjustToZoomChecked 4 =
      some ⟨some ⟨6, 6, 7, 7⟩, none, 4⟩ ∧
    (⟨some ⟨3, 3, 3, 3⟩, none, 3⟩ : MatchOpts).adjustToZoomChecked 5 =
      some ⟨some ⟨12, 12, 15, 15⟩, none, 5⟩ ∧
    (⟨some ⟨5, 3, 7, 4⟩, none, 3⟩ : MatchOpts).adjustToZoomChecked 4 =
      some ⟨some ⟨10, 6, 15, 9⟩, none, 4⟩ ∧
    (⟨some ⟨5, 3, 7, 4⟩, none, 3⟩ : MatchOpts).adjustToZoomChecked 5 =
      some ⟨some ⟨20, 12, 31, 19⟩, none, 5⟩ ∧
    (⟨some ⟨6, 3, 8, 4⟩, none, 5⟩ : MatchOpts).adjustToZoomChecked 4 =
      some ⟨some ⟨3, 1, 4, 2⟩, none, 4⟩ := by decide +kernel

/-! ## eager_test (common.rs:631-658) -/

example : groupBy (fun x : ℕ => x) [1, 1, 1, 2, 3, 4, 4, 4, 7, 7, 8] =
      [(1, [1, 1, 1]), (2, [2]), (3, [3]), (4, [4, 4, 4]), (7, [7, 7]), (8, [8])] ∧
    groupBy (fun x : ℕ × Char => x.1) [(1, 'a'), (1, 'b'), (2, 'b'), (3, 'z'), (4, 'a'), (4, 'a')] =
      [(1, [(1, 'a'), (1, 'b')]), (2, [(2, 'b')]), (3, [(3, 'z')]), (4, [(4, 'a'), (4, 'a')])] := by
  decide +kernel

/-! ## extend_entry_test, insert_test, append_test, compact_append_test (builder.rs:246-347) -/

example : extendEntries [] [⟨1, 7, 1, 1, 1, 2⟩] = [(55, [(3, [258])])] := by decide +kernel

example : ((Builder.new.insert ⟨1, 1⟩ [⟨lit 0.8, 3, 2, 2, 2, 0⟩, ⟨1, 1, 3, 3, 3, 1⟩,
    ⟨1, 7, 1, 1, 1, 2⟩]).data.map fun p => (p.1, p.2.length)) = [(⟨1, 1⟩, 3)] := by decide +kernel

example : (((Builder.new.insert ⟨1, 1⟩ [⟨lit 0.8, 3, 2, 2, 2, 0⟩]).append ⟨1, 1⟩
    [⟨1, 1, 3, 3, 3, 1⟩, ⟨1, 7, 1, 1, 1, 2⟩]).data.map fun p => (p.1, p.2.length)) =
    [(⟨1, 1⟩, 3)] := by decide +kernel

example : (((Builder.new.insert ⟨1, 1⟩ [⟨1, 1, 2, 2, 2, 0⟩]).compactAppend ⟨1, 1⟩ 1 1 2 0
    [(0, 0)]).data.map fun p => (p.1, p.2.length)) = [(⟨1, 1⟩, 1)] := by decide +kernel

/-! ## simple_stackable_test, bmask_stackable_test, mask_stackable_test (stackable.rs:277-522) -/

/-- A phrase match without results. -/
def stackMatch (typeId idx mask id : ℕ) : Subquery :=
  phraseMatch ⟨[], [], 14, typeId, .fin 200, globalBBoxForZoom 14, 1⟩ idx (lit 0.5) mask 0 1 0 id

/-- For every child of the root its match key and those of its children. -/
def twoLevels (t : StackTree) : List (List ℕ × List (List ℕ)) :=
  let keysOf (i : ℕ) : List ℕ :=
    (((t.arena.get i).bind StackNode.pm).elim [] fun q => q.matchKeys.map KeyWithId.id)
  t.root.children.map fun i =>
    (keysOf i, ((t.arena.get i).elim [] StackNode.children).map keysOf)

example : (stackable [stackMatch 1 1 2 0, stackMatch 2 2 1 1, stackMatch 2 2 1 2]).map twoLevels =
    some [([0], [[1], [2]]), ([1], []), ([2], [])] := by decide +kernel

example : (stackable [stackMatch 1 1 1 0, stackMatch 1 1 1 1]).map twoLevels =
    some [([0], []), ([1], [])] := by decide +kernel

/-! ## collapse_phrasematches_test (coalesce.rs:996-1054) -/

example : (collapse [stackMatch 1 2 1 1, stackMatch 1 2 1 2]).map
    (fun l => l.map fun q => q.matchKeys.map KeyWithId.id) = some [[1, 2]] := by decide +kernel

/-! ## test_write (gridstore_format.rs:495-567) -/

/-- The record of the test. -/
def testRecord : BuilderEntry :=
  [(250, [(8420, [1]), (842, [12])]), (210, [(15, [12835, 636])]), (106, [(2, [8, 8])]),
   (100, [(42, [1235])]), (66, [(16777215, [8]), (4, [8])]), (65, [(65536, [8]), (3, [8])]),
   (50, [(842, [12]), (421, [1239, 1235])])]

/-- All relevance-scores, tiles and ids of a record. -/
def readRecord (v : Bytes) : Option (List (ℕ × ℕ × ℕ)) := do
  let root ← readRoot v
  let rses ← readVarVec v root
  let l ← rses.mapM fun rs => do
    let cs ← readUniformVec v rs.coords
    let l ← cs.mapM fun c => do
      let ids ← readFixedVec v c.ids
      some (ids.map fun i => (rs.relevScore, c.coord, i))
    some l.flatten
  some l.flatten

example : readRecord (encodeValue .id testRecord) = some
    [(250, 8420, 1), (250, 842, 12), (210, 15, 12835), (210, 15, 636), (106, 2, 8),
     (100, 42, 1235), (66, 16777215, 8), (66, 4, 8), (65, 65536, 8), (65, 3, 8), (50, 842, 12),
     (50, 421, 1239), (50, 421, 1235)] := by decide +kernel

end Carmen.Conformance
