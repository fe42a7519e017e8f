import Verif.Spec.Relabel
import Verif.Spec.Ground
import Verif.Spec.Exact

/-!
# Specification: searching a map that was moved
-/

namespace Carmen.Spec

/-- The map is moved by whole tiles of a zoom. -/
structure Shift where
  zoom : ℕ
  dx : ℤ
  dy : ℤ

/-- What that is in tiles of a zoom no less. -/
def Shift.at (m : Shift) (z : ℕ) : Motion :=
  ⟨false, ⟨false, m.dx * 2 ^ (z - m.zoom)⟩, ⟨false, m.dy * 2 ^ (z - m.zoom)⟩⟩

/-- The map is moved back. -/
def Shift.back (m : Shift) : Shift := ⟨m.zoom, -m.dx, -m.dy⟩

/-- The request with its box and its point moved. -/
def Shift.opts (m : Shift) (opts : MatchOpts) : MatchOpts := (m.at opts.zoom).opts opts

/-- The second index is of the same kind and holds what the first one holds, moved, all of it within
the map. -/
structure ShiftsTo (m : Shift) (s s' : Store) : Prop where
  zoom : s'.zoom = s.zoom
  typeId : s'.typeId = s.typeId
  radius : s'.radius = s.radius
  whole : m.zoom ≤ s.zoom
  content : ∃ c, StoreWith c s ∧ StoreWith ((m.at s.zoom).content c) s' ∧
    (m.at s.zoom).StaysContent c

/-- A request that is valid and still is when moved. -/
structure ShiftsOpts (m : Shift) (opts : MatchOpts) : Prop where
  sound : SoundOpts opts
  sound' : SoundOpts (m.opts opts)
  whole : m.zoom ≤ opts.zoom
  stays : (m.at opts.zoom).StaysOpts opts

/-- The square round the point, for match keys that are for nearby features only, has coordinates of 16
bits. -/
def NearbyFits (st : ℕ → Store) (opts : MatchOpts) (qs : List Subquery) : Prop :=
  ∀ q ∈ qs, ∀ kg ∈ q.matchKeys, kg.nearbyOnly = true → opts.proximity = none ∨ (st q.idx).zoom ≤ 15

/-- The same features by the same match keys with the same relevances at tiles that have been moved. -/
structure ShiftedContext (m : Shift) (st : ℕ → Store) (c c' : Context) : Prop where
  parts : List.Forall₂ (fun e e' : CoalesceEntry =>
    ((e'.entry.x : ℤ), (e'.entry.y : ℤ)) = (m.at (st e.idx).zoom).move e.entry.x e.entry.y ∧
    e'.entry.id = e.entry.id ∧ e'.phrasematchId = e.phrasematchId ∧
    e'.idx = e.idx ∧ e'.mask = e.mask ∧ e'.entry.relev = e.entry.relev) c.entries c'.entries
  mask : c'.mask = c.mask
  relev : c'.relev = c.relev

end Carmen.Spec
