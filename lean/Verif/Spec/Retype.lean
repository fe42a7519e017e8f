import Verif.Spec.Boxes

/-!
# Specification: other types of indexes
-/

namespace Carmen.Spec

/-- The phrase match, where the index of type `t` has type `g t`. -/
def withType (g : ℕ → ℕ) (q : Subquery) : Subquery :=
  { q with store := { q.store with typeId := g q.store.typeId } }

/-- The types of the indexes of the request are in the same order as before. -/
def SameTypeOrder (g : ℕ → ℕ) (qs : List Subquery) : Prop :=
  ∀ a ∈ qs, ∀ b ∈ qs, g a.store.typeId < g b.store.typeId ↔ a.store.typeId < b.store.typeId

end Carmen.Spec
