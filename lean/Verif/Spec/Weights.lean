import Verif.Spec.Languages

/-!
# Specification: phrase matches of other weights
-/

namespace Carmen.Spec

/-- The phrase match with the weight that the id of its match key stands for. -/
def withWeight (w : ℕ → F64) (q : Subquery) : Subquery :=
  { q with weight := w ((q.matchKeys.map KeyWithId.id).headD 0) }

/-- No phrase match is heavier by the one than by the other. -/
def NoHeavier (w w' : ℕ → F64) (qs : List Subquery) : Prop :=
  ∀ q ∈ qs, (withWeight w q).weight ≤ (withWeight w' q).weight

end Carmen.Spec
