import Verif.Spec.Boxes

/-!
# Specification: more indexes that do not overlap
-/

namespace Carmen.Spec

/-- The phrase match, where the index numbered `i` does not overlap with those of `f i`. -/
def withExclusions (f : ℕ → List ℕ) (q : Subquery) : Subquery := { q with nonOverlapping := f q.idx }

/-- What was said not to overlap still does not, and the root of the tree is left alone. -/
structure MoreExclusions (f : ℕ → List ℕ) (qs : List Subquery) : Prop where
  more : ∀ q ∈ qs, ∀ i ∈ q.nonOverlapping, i ∈ f q.idx
  root : ∀ q ∈ qs, 129 ∉ f q.idx

/-- No entry of the context is directly below an entry of an index its own does not overlap with.
Entries come from the lowest one to the highest one. -/
def Allowed (f : ℕ → List ℕ) (c : Context) : Prop :=
  c.entries.IsChain fun lower upper => upper.idx ∉ f lower.idx

end Carmen.Spec
