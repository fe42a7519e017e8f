import Verif.Model.Store

/-!
# Specification: ranges and their parts
-/

namespace Carmen.Spec

/-- A range and its two parts are read from the same rows: all three ends are boundaries of bins, or no
two of them are. -/
def ReadAlike (bounds : List ℕ) (st mid en : ℕ) : Prop :=
  (st ∈ bounds ∧ mid ∈ bounds ∧ en ∈ bounds) ∨
    (¬ (st ∈ bounds ∧ mid ∈ bounds) ∧ ¬ (mid ∈ bounds ∧ en ∈ bounds) ∧
      ¬ (st ∈ bounds ∧ en ∈ bounds))

end Carmen.Spec
