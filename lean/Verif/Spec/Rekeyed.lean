import Verif.Spec.Boxes

/-!
# Specification: match keys of other phrase lengths
-/

namespace Carmen.Spec

/-- The match key with another phrase length, and for nearby grids only or not. -/
def rekey (f : KeyWithId → Bool × ℕ) (kg : KeyWithId) : KeyWithId :=
  { kg with nearbyOnly := (f kg).1, phraseLength := (f kg).2 }

/-- The phrase match with such match keys. -/
def rekeyed (f : KeyWithId → Bool × ℕ) (q : Subquery) : Subquery :=
  { q with matchKeys := q.matchKeys.map (rekey f) }

/-- The search is not from a point, or match keys stay for nearby grids only or not. -/
def NearbyIdle (f : KeyWithId → Bool × ℕ) (opts : MatchOpts) (qs : List Subquery) : Prop :=
  opts.proximity = none ∨ ∀ q ∈ qs, ∀ kg ∈ q.matchKeys, (f kg).1 = kg.nearbyOnly

end Carmen.Spec
