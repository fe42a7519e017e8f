import Verif.Spec.History

/-!
# Specification: what a query may depend on
-/

namespace Carmen.Spec

/-- Two histories leave the same sets of entries under every key whose phrase is among `P`; what
they leave under other phrases is free. -/
def SameUnder (P : ℕ → Prop) (cs cs' : List Call) : Prop :=
  ∀ k : GridKey, P k.phraseId → (Content.run cs k = none ↔ Content.run cs' k = none) ∧
    ∀ es es', Content.run cs k = some es → Content.run cs' k = some es' → ∀ e, e ∈ es ↔ e ∈ es'

/-- The phrases asked for. -/
def Asked : MatchPhrase → ℕ → Prop
  | .exact id, p => p = id
  | .range st en, p => st ≤ p ∧ p < en

/-- The phrases that can matter when a range from one boundary to another is asked for: those in the
range, and, if it starts at the first boundary, all those before it. -/
def AskedBins (bounds : List ℕ) (st en p : ℕ) : Prop :=
  p < en ∧ (st ≤ p ∨ ∀ y ∈ bounds, st ≤ y)

end Carmen.Spec
