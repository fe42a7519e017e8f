import Verif.Spec.Coalesce

/-!
# What coalescing a single phrase match has to find
-/

namespace Carmen.Spec

/-- The context is at least as good as the result `g` of the phrase match: a higher relevance, or
the same relevance and no lower score-distance. -/
def AtLeastAsGood (q : Subquery) (g : MatchEntry) (c : Context) : Prop :=
  g.entry.relev * q.weight < c.relev ∨
    (g.entry.relev * q.weight = c.relev ∧ g.scoredist ≤ c.first.scoredist)

/-- The context is better than the result `g`: a higher relevance, or the same relevance and a
higher score-distance. -/
def Better (q : Subquery) (g : MatchEntry) (c : Context) : Prop :=
  g.entry.relev * q.weight < c.relev ∨
    (g.entry.relev * q.weight = c.relev ∧ g.scoredist < c.first.scoredist)

end Carmen.Spec
