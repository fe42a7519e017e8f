import Verif.Spec.Above

/-!
# Specification: two contexts with an entry in common
-/

namespace Carmen.Spec

/-- The entries cover different words. -/
def OtherWords (lower upper : List CoalesceEntry) : Prop :=
  ∀ e ∈ lower, ∀ e' ∈ upper, e'.mask &&& e.mask = 0

end Carmen.Spec
