import Verif.Model.TreeCoalesce

/-!
# What collapsing phrase matches should do
-/

namespace Carmen.Spec

/-- The phrase matches with a given weight, index and mask, in order. -/
def groupOf (k : F64 × ℕ × ℕ) (qs : List Subquery) : List Subquery :=
  qs.filter fun q => decide ((q.weight, q.idx, q.mask) = k)

/-- The weight, index and mask of each phrase match. -/
def groupKeys (qs : List Subquery) : List (F64 × ℕ × ℕ) := qs.map fun q => (q.weight, q.idx, q.mask)

/-- `out` has one phrase match for each group of `qs`, in order of first appearance. It is the first
one of the group with the match keys `keys q later`. -/
structure CollapsedTo (keys : Subquery → List Subquery → List KeyWithId)
    (qs out : List Subquery) : Prop where
  same : ∀ k, k ∈ groupKeys out ↔ k ∈ groupKeys qs
  order : (groupKeys out).Pairwise fun a b => (groupKeys qs).idxOf a < (groupKeys qs).idxOf b
  made : ∀ o ∈ out, ∃ q later, groupOf (o.weight, o.idx, o.mask) qs = q :: later ∧
    o = { q with matchKeys := keys q later }

/-- All match keys of a group. -/
def allKeys (q : Subquery) (later : List Subquery) : List KeyWithId :=
  (q :: later).flatMap (·.matchKeys)

end Carmen.Spec
