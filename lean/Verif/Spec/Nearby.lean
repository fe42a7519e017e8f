import Verif.Spec.Rekeyed
import Verif.Spec.Ground
import Verif.Props.Zoom

/-!
# Specification: match keys for nearby grids only
-/

namespace Carmen.Spec

/-- The phrase match with the match keys whose ids `n` gives for nearby grids only. -/
def nearbyFor (n : ℕ → Bool) (q : Subquery) : Subquery :=
  rekeyed (fun kg => (n kg.id, kg.phraseLength)) q

/-- There is room for the whole square round the point below 2^16, at the zooms of all indexes. -/
def AwayFromEdge (opts : MatchOpts) (qs : List Subquery) : Prop :=
  ∀ p, opts.proximity = some p → ∀ q ∈ qs,
    (pointAt opts.zoom p q.store.zoom).1 + nearbyTiles q.store.zoom < 2 ^ 16 ∧
    (pointAt opts.zoom p q.store.zoom).2 + nearbyTiles q.store.zoom < 2 ^ 16

/-- The entries of the context with match keys in `n` are near the point. -/
def NearWhereAsked (opts : MatchOpts) (n : ℕ → Bool) (qs : List Subquery) (c : Context) : Prop :=
  ∀ e ∈ c.entries, n e.phrasematchId = true → ∀ q ∈ qs, q.idx = e.idx →
    ∀ p, opts.proximity = some p → WithinTiles (nearbyTiles q.store.zoom)
      (pointAt opts.zoom p q.store.zoom) (e.entry.x, e.entry.y)

end Carmen.Spec
