import Verif.Spec.Exact

/-!
# Specification: readings of a query that exclude each other
-/

namespace Carmen.Spec

/-- No phrase match of the one reading can be combined with one of the other: they share a word, or are
of the same type. -/
def ExcludeEachOther (as bs : List Subquery) : Prop :=
  ∀ a ∈ as, ∀ b ∈ bs, a.mask &&& b.mask ≠ 0 ∨ a.store.typeId = b.store.typeId

end Carmen.Spec
