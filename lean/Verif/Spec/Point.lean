import Verif.Spec.Languages

/-!
# Specification: searching near a point
-/

namespace Carmen.Spec

/-- The request without its point. -/
def withoutPoint (opts : MatchOpts) : MatchOpts := { opts with proximity := none }

/-- A result of a query without a point as it comes back with one: the same entry in the same languages,
with a relevance that is no lower, and the same if it is in the languages asked for. -/
structure WithPoint (r r' : MatchEntry) : Prop where
  entry : r'.entry = { r.entry with relev := r'.entry.relev }
  language : r'.matchesLanguage = r.matchesLanguage
  relev : r.entry.relev ≤ r'.entry.relev
  same : r.matchesLanguage = true → r'.entry.relev = r.entry.relev

/-- No match key is for nearby features only. -/
def NoneNearbyOnly (qs : List Subquery) : Prop :=
  ∀ q ∈ qs, ∀ kg ∈ q.matchKeys, kg.nearbyOnly = false

end Carmen.Spec
