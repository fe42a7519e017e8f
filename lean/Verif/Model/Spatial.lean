import Verif.Model.Common
import Verif.Model.Format

/-!
# gridstore/spatial.rs and the query options of gridstore/common.rs

Tile vectors (`UniformVec<Coord>`) are lists. `coords.get(i)` is `coords[i]?`; the
indices used are always in range (`Verif.Lemmas.Spatial.search_lt`), so the `none` case
never occurs.
-/

namespace Carmen
open Format

/-- `coords.get(i).coord`; out of range (never happens) gives 0. -/
def coordAt (cs : List Coord) (i : ℕ) : ℕ := ((cs[i]?).map Coord.coord).getD 0

/-- The loop of `coord_binary_search` (spatial.rs:172-178). `fuel` bounds the number of
iterations; the initial `size` suffices. -/
def searchLoop (cs : List Coord) (val : ℕ) : ℕ → ℕ → ℕ → ℕ
  | 0, _, base => base
  | fuel + 1, size, base =>
    if 1 < size then
      let half := size / 2
      let mid := base + half
      searchLoop cs val fuel (size - half) (if coordAt cs mid < val then base else mid)
    else base

/-- `coord_binary_search` (spatial.rs:154-188); `none` is `Err`. -/
def coordSearch (cs : List Coord) (val offset : ℕ) : Option ℕ :=
  let len := cs.length
  if len ≤ offset then none
  else
    let base := searchLoop cs val (len - offset) (len - offset) offset
    if base = len - 1 then some base
    else if coordAt cs base = val then some base
    else some (base + (if val < coordAt cs base then 1 else 0))

/-- `bbox_range` (spatial.rs:14-48), without the debug assertions: see `bboxRangeAsserts`. -/
def bboxRange (cs : List Coord) (b : BBox) : Option (ℕ × ℕ) :=
  let lo := interleave b.minX b.minY
  let hi := interleave b.maxX b.maxY
  let len := cs.length
  if len = 0 then none
  else if coordAt cs 0 < lo then none
  else if hi < coordAt cs (len - 1) then none
  else match coordSearch cs hi 0 with
    | none => none
    | some start => match coordSearch cs lo start with
      | none => none
      | some stop => some (start, if stop = len then stop - 1 else stop)

/-- The debug assertions of `bbox_range` (spatial.rs:17, 32, 46); the second is passed over when
the function has returned before (spatial.rs:20-31). -/
def bboxRangeAsserts (cs : List Coord) (b : BBox) : Bool :=
  decide (interleave b.minX b.minY ≤ interleave b.maxX b.maxY) &&
  (decide (cs.length = 0) || decide (coordAt cs 0 < interleave b.minX b.minY) ||
    decide (interleave b.maxX b.maxY < coordAt cs (cs.length - 1)) ||
    decide (coordAt cs (cs.length - 1) ≤ coordAt cs 0)) &&
  (match bboxRange cs b with
    | none => true
    | some r => decide (r.1 ≤ r.2))

/-- The tile test of the box filters (spatial.rs:67-68, 128-129). -/
def inBox (b : BBox) (c : ℕ) : Bool :=
  let p := deinterleave c
  decide (b.minX ≤ p.1) && decide (p.1 ≤ b.maxX) && decide (b.minY ≤ p.2) &&
    decide (p.2 ≤ b.maxY)

/-- The closure reading and filtering an index (spatial.rs:65-72, 126-134). -/
def filteredGet (cs : List Coord) (b : BBox) (i : ℕ) : Option Coord :=
  (cs[i]?).filter (fun c => inBox b c.coord)

/-- `lo..hi` as a list. -/
def rangeList (lo hi : ℕ) : List ℕ := List.range' lo (hi - lo)

/-- `bbox_filter` (spatial.rs:55-73). -/
def bboxFilter (cs : List Coord) (b : BBox) : Option (List Coord) :=
  if cs.length = 0 then none
  else (bboxRange cs b).map fun r => (rangeList r.1 (r.2 + 1)).filterMap (filteredGet cs b)

/-- itertools `merge_by`: take from the left when `first a b` holds, else from the
right. -/
def mergeBy {α : Type} (first : α → α → Bool) : List α → List α → List α
  | [], ys => ys
  | x :: xs, ys => go x xs (mergeBy first xs) ys
where
  /-- The head `x` of the left list against the right list; `rest` merges `xs`. -/
  go (x : α) (xs : List α) (rest : List α → List α) : List α → List α
    | [] => x :: xs
    | y :: ys => if first x y then x :: rest (y :: ys) else y :: go x xs rest ys

/-- Distance along the z-order curve (spatial.rs:98-100, 139-141). -/
def zDist (pt c : ℕ) : ℕ := ((c : ℤ) - (pt : ℤ)).natAbs

/-- `proximity` (spatial.rs:79-104). -/
def proximity (cs : List Coord) (p : ℕ × ℕ) : Option (List Coord) :=
  let pt := interleave p.1 p.2
  if cs.length = 0 then none
  else (coordSearch cs pt 0).map fun mid =>
    let head := (rangeList 0 mid).reverse.filterMap (fun i => cs[i]?)
    let tail := (rangeList mid cs.length).filterMap (fun i => cs[i]?)
    mergeBy (fun a b => decide (zDist pt a.coord < zDist pt b.coord)) head tail

/-- `bbox_proximity_filter` (spatial.rs:110-145). -/
def bboxProximity (cs : List Coord) (b : BBox) (p : ℕ × ℕ) : Option (List Coord) :=
  match bboxRange cs b with
  | none => none
  | some r =>
    let pt := interleave p.1 p.2
    if cs.length = 0 then none
    else (coordSearch cs pt 0).map fun mid =>
      let head := (rangeList r.1 mid).reverse.filterMap (filteredGet cs b)
      let tail := (rangeList mid (r.2 + 1)).filterMap (filteredGet cs b)
      mergeBy (fun a b => decide (zDist pt a.coord < zDist pt b.coord)) head tail

/-! ## Distances -/

/-- `tile_dist` (spatial.rs:459-463). -/
def tileDist (px py gx gy : ℕ) : F64 :=
  let dx := F64.ofNat px - F64.ofNat gx
  let dy := F64.ofNat py - F64.ofNat gy
  F64.sqrt (dx * dx + dy * dy)

/-- `TILES_PER_MILE_BY_ZOOM` (spatial.rs:496-514). -/
def tilesPerMileTable : List F64 :=
  [lit 0.002740389912625401, lit 0.004110584868938102, lit 0.006165877303407152,
   lit 0.009248815955110727, lit 0.013873223932666092, lit 0.020809835898999138,
   lit 0.031214753848498707, lit 0.046822130772748057, lit 0.07023319615912209,
   lit 0.10534979423868314, lit 0.1580246913580247, lit 0.23703703703703705,
   lit 0.35555555555555557, lit 0.5333333333333333, lit 0.8, lit 1.2000000000000002,
   lit 1.8000000000000003]

/-- `tiles_per_mile_by_zoom` (spatial.rs:485-520). `powi` is modelled as repeated
multiplication (its exact rounding is platform dependent; zooms above 16 only). -/
def tilesPerMile (zoom : ℕ) : F64 :=
  if zoom ≤ 16 then (tilesPerMileTable[zoom]?).getD 0
  else lit 0.8 * (List.replicate (zoom - 14) (lit 1.5)).foldl (· * ·) 1

/-- `proximity_radius` (spatial.rs:539-543). -/
def proximityRadius (zoom : ℕ) (radius : F64) : F64 := radius * tilesPerMile zoom

/-- `E_POW` (spatial.rs:568-577). -/
def ePow : List F64 :=
  [1, lit 2.718281828459045, lit 7.38905609893065, lit 20.085536923187668,
   lit 54.598150033144236, lit 148.4131591025766, lit 403.4287934927351,
   lit 1096.6331584284585]

/-- `E_POW[i]`. -/
def ePowAt (i : ℕ) : F64 := (ePow[i]?).getD 0

/-- `scoredist` (spatial.rs:579-599). -/
def scoredist (zoom : ℕ) (distance : F64) (score : ℕ) (radius : F64) : F64 :=
  let zoom := if zoom < 6 then 6 else zoom
  let score := if 7 < score then 7 else score
  let distance := if F64.flt distance 1 then lit 0.8 else distance
  let ratio := distance / proximityRadius zoom radius
  let ratio := if F64.flt 1 ratio then 1 else ratio
  ((lit 6 * ePowAt score / ePowAt 7) + 1) / ratio

/-! ## Zoom adjustment

`u16` arithmetic as in a release build: results are taken modulo `2^16`, shift amounts
modulo 16. The `…Checked` versions return `none` where a debug build panics. -/

/-- `a * b` on `u16`, wrapping. -/
def mul16 (a b : ℕ) : ℕ := a * b % 2 ^ 16
/-- `a + b` on `u16`, wrapping. -/
def add16 (a b : ℕ) : ℕ := (a + b) % 2 ^ 16
/-- `a - b` on `u16`, wrapping. -/
def sub16 (a b : ℕ) : ℕ := (a + 2 ^ 16 - b) % 2 ^ 16
/-- `a >> n` on `u16`, shift amount masked. -/
def shr16 (a n : ℕ) : ℕ := a >>> (n % 16)
/-- `1u16 << n`, shift amount masked. -/
def oneShl16 (n : ℕ) : ℕ := 1 <<< (n % 16)

/-- `adjust_bbox_zoom` (spatial.rs:602-629). -/
def adjustBBoxZoom (b : BBox) (sourceZ targetZ : ℕ) : BBox :=
  if targetZ < sourceZ then
    let n := sourceZ - targetZ
    ⟨shr16 b.minX n, shr16 b.minY n, shr16 b.maxX n, shr16 b.maxY n⟩
  else
    let m := oneShl16 (targetZ - sourceZ)
    ⟨mul16 b.minX m, mul16 b.minY m, add16 (mul16 b.maxX m) (sub16 m 1),
     add16 (mul16 b.maxY m) (sub16 m 1)⟩

/-- `global_bbox_for_zoom` (spatial.rs:631-636). -/
def globalBBoxForZoom (zoom : ℕ) : List BBox :=
  let m := ((1 <<< (zoom % 32)) % 2 ^ 32 - 1) % 2 ^ 16
  [⟨0, 0, m, m⟩]

/-- The proximity part of `adjust_to_zoom` (common.rs:129-150). -/
def adjustProximity (p : ℕ × ℕ) (sourceZ targetZ : ℕ) : ℕ × ℕ :=
  if targetZ < sourceZ then
    let n := sourceZ - targetZ
    (shr16 p.1 n, shr16 p.2 n)
  else
    let m := oneShl16 (targetZ - sourceZ)
    let mid := sub16 (m / 2) 1
    (add16 (mul16 p.1 m) mid, add16 (mul16 p.2 m) mid)

/-- `MatchOpts::adjust_to_zoom` (common.rs:125-156). -/
def MatchOpts.adjustToZoom (o : MatchOpts) (targetZ : ℕ) : MatchOpts :=
  if o.zoom = targetZ then o
  else ⟨o.bbox.map (fun b => adjustBBoxZoom b o.zoom targetZ),
        o.proximity.map (fun p => adjustProximity p o.zoom targetZ), targetZ⟩

/-- A checked `u16` result: `none` where a debug build panics. -/
def chk16 (n : ℕ) : Option ℕ := if n < 2 ^ 16 then some n else none

/-- Checked subtraction. -/
def chkSub (a b : ℕ) : Option ℕ := if b ≤ a then some (a - b) else none

/-- Checked shift amount of a `u16` shift. -/
def chkShift (n : ℕ) : Option ℕ := if n < 16 then some n else none

/-- `adjust_bbox_zoom` (spatial.rs:602-629) with overflow checks. -/
def adjustBBoxZoomChecked (b : BBox) (sourceZ targetZ : ℕ) : Option BBox :=
  if targetZ < sourceZ then do
    let n ← chkShift (sourceZ - targetZ)
    some ⟨b.minX >>> n, b.minY >>> n, b.maxX >>> n, b.maxY >>> n⟩
  else do
    let n ← chkShift (targetZ - sourceZ)
    let m := 1 <<< n
    let x0 ← chk16 (b.minX * m)
    let y0 ← chk16 (b.minY * m)
    let d ← chkSub m 1
    let x1 ← chk16 (b.maxX * m)
    let x1 ← chk16 (x1 + d)
    let y1 ← chk16 (b.maxY * m)
    let y1 ← chk16 (y1 + d)
    some ⟨x0, y0, x1, y1⟩

/-- The proximity part of `adjust_to_zoom` (common.rs:129-150) with overflow checks. -/
def adjustProximityChecked (p : ℕ × ℕ) (sourceZ targetZ : ℕ) : Option (ℕ × ℕ) :=
  if targetZ < sourceZ then do
    let n ← chkShift (sourceZ - targetZ)
    some (p.1 >>> n, p.2 >>> n)
  else do
    let n ← chkShift (targetZ - sourceZ)
    let m := 1 <<< n
    let mid ← chkSub (m / 2) 1
    let x ← chk16 (p.1 * m)
    let x ← chk16 (x + mid)
    let y ← chk16 (p.2 * m)
    let y ← chk16 (y + mid)
    some (x, y)

/-- `MatchOpts::adjust_to_zoom` (common.rs:125-156) with overflow checks. -/
def MatchOpts.adjustToZoomChecked (o : MatchOpts) (targetZ : ℕ) : Option MatchOpts :=
  if o.zoom = targetZ then some o
  else do
    let p ← match o.proximity with
      | none => some none
      | some p => (adjustProximityChecked p o.zoom targetZ).map some
    let b ← match o.bbox with
      | none => some none
      | some b => (adjustBBoxZoomChecked b o.zoom targetZ).map some
    some ⟨b, p, targetZ⟩

/-- `(1 << zoom) as f64` (common.rs:166): the shift is of an `i32`, its amount is masked in a release
build, and a shift by 31 gives a negative number. -/
def oneShlI32 (zoom : ℕ) : F64 :=
  if zoom % 32 = 31 then -F64.ofNat (2 ^ 31) else F64.ofNat (2 ^ (zoom % 32))

/-- The padding of `with_nearby_only` (common.rs:166-167). -/
def nearbyPadding (zoom : ℕ) : ℕ :=
  F64.toU16 (F64.ceil (lit 25 / (lit 24901 / oneShlI32 zoom)))

/-- The padding in a debug build: shifting by the width of the type panics. -/
def nearbyPaddingChecked (zoom : ℕ) : Option ℕ :=
  if zoom < 32 then some (nearbyPadding zoom) else none

/-- `MatchOpts::with_nearby_only` (common.rs:158-187), release build. -/
def MatchOpts.withNearbyOnly (o : MatchOpts) : MatchOpts :=
  match o.proximity with
  | none => o
  | some p =>
    let pad := nearbyPadding o.zoom
    let nb : BBox :=
      ⟨if p.1 < pad then 0 else p.1 - pad, if p.2 < pad then 0 else p.2 - pad,
       add16 p.1 pad, add16 p.2 pad⟩
    let nb := match o.bbox with
      | none => nb
      | some ob => ⟨max ob.minX nb.minX, max ob.minY nb.minY, min ob.maxX nb.maxX,
          min ob.maxY nb.maxY⟩
    { o with bbox := some nb }

/-- `MatchOpts::with_nearby_only` (common.rs:158-187) with overflow checks: `none` where a debug
build panics. -/
def MatchOpts.withNearbyOnlyChecked (o : MatchOpts) : Option MatchOpts :=
  match o.proximity with
  | none => some o
  | some p => do
    let pad ← nearbyPaddingChecked o.zoom
    let maxX ← chk16 (p.1 + pad)
    let maxY ← chk16 (p.2 + pad)
    let nb : BBox :=
      ⟨if p.1 < pad then 0 else p.1 - pad, if p.2 < pad then 0 else p.2 - pad, maxX, maxY⟩
    let nb := match o.bbox with
      | none => nb
      | some ob => ⟨max ob.minX nb.minX, max ob.minY nb.minY, min ob.maxX nb.maxX,
          min ob.maxY nb.maxY⟩
    some { o with bbox := some nb }

end Carmen
