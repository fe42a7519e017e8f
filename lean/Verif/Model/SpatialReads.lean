import Verif.Model.Store

/-!
# gridstore/spatial.rs with every read checked

The functions of `Verif.Model.Spatial` again, with `coords.get(i)` (gridstore_format.rs:386-389)
failing when there is no tile number `i`: there the code would read bytes that belong to something
else, or panic. The outer `none` is such a read.
-/

namespace Carmen
open Format

/-- `coords.get(i).coord`. -/
def readCoord (cs : List Coord) (i : ℕ) : Option ℕ := (cs[i]?).map Coord.coord

/-- The loop of `coord_binary_search` (spatial.rs:172-178). -/
def searchLoopReads (cs : List Coord) (val : ℕ) : ℕ → ℕ → ℕ → Option ℕ
  | 0, _, base => some base
  | fuel + 1, size, base =>
    if 1 < size then do
      let c ← readCoord cs (base + size / 2)
      searchLoopReads cs val fuel (size - size / 2) (if c < val then base else base + size / 2)
    else some base

/-- `coord_binary_search` (spatial.rs:154-188). -/
def coordSearchReads (cs : List Coord) (val offset : ℕ) : Option (Option ℕ) :=
  if cs.length ≤ offset then some none
  else do
    let base ← searchLoopReads cs val (cs.length - offset) (cs.length - offset) offset
    if base = cs.length - 1 then some (some base)
    else do
      let c ← readCoord cs base
      if c = val then some (some base) else some (some (base + (if val < c then 1 else 0)))

/-- `bbox_range` (spatial.rs:14-48). -/
def bboxRangeReads (cs : List Coord) (b : BBox) : Option (Option (ℕ × ℕ)) :=
  let lo := interleave b.minX b.minY
  let hi := interleave b.maxX b.maxY
  if cs.length = 0 then some none
  else do
    let first ← readCoord cs 0
    if first < lo then some none
    else do
      let last ← readCoord cs (cs.length - 1)
      if hi < last then some none
      else do
        match ← coordSearchReads cs hi 0 with
        | none => some none
        | some start => match ← coordSearchReads cs lo start with
          | none => some none
          | some stop => some (some (start, if stop = cs.length then stop - 1 else stop))

/-- The closures `getter` and `filtered_get` (spatial.rs:65-72, 94, 126-134) over a range of
indices: every one is read, some are kept. -/
def readAll (cs : List Coord) (keep : Coord → Bool) (is : List ℕ) : Option (List Coord) :=
  (is.mapM fun i => cs[i]?).map (List.filter keep)

/-- `bbox_filter` (spatial.rs:55-73), read to the end. -/
def bboxFilterReads (cs : List Coord) (b : BBox) : Option (Option (List Coord)) := do
  if cs.length = 0 then some none
  else match ← bboxRangeReads cs b with
    | none => some none
    | some r => (readAll cs (fun c => inBox b c.coord) (rangeList r.1 (r.2 + 1))).map some

/-- `proximity` (spatial.rs:79-104), read to the end. -/
def proximityReads (cs : List Coord) (p : ℕ × ℕ) : Option (Option (List Coord)) := do
  let pt := interleave p.1 p.2
  if cs.length = 0 then some none
  else match ← coordSearchReads cs pt 0 with
    | none => some none
    | some mid => do
      let head ← readAll cs (fun _ => true) (rangeList 0 mid).reverse
      let tail ← readAll cs (fun _ => true) (rangeList mid cs.length)
      some (some (mergeBy (fun a b => decide (zDist pt a.coord < zDist pt b.coord)) head tail))

/-- `bbox_proximity_filter` (spatial.rs:110-145), read to the end. -/
def bboxProximityReads (cs : List Coord) (b : BBox) (p : ℕ × ℕ) :
    Option (Option (List Coord)) := do
  match ← bboxRangeReads cs b with
  | none => some none
  | some r =>
    let pt := interleave p.1 p.2
    if cs.length = 0 then some none
    else match ← coordSearchReads cs pt 0 with
      | none => some none
      | some mid => do
        let head ← readAll cs (fun c => inBox b c.coord) (rangeList r.1 mid).reverse
        let tail ← readAll cs (fun c => inBox b c.coord) (rangeList mid (r.2 + 1))
        some (some (mergeBy (fun a b => decide (zDist pt a.coord < zDist pt b.coord)) head tail))

end Carmen
