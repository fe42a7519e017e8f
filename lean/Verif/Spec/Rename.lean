import Verif.Spec.History

/-!
# Specification: phrases under other numbers
-/

namespace Carmen.Spec

/-- The phrase `p` after `renumber map`. -/
def renamed (map : List ℕ) (p : ℕ) : ℕ := map[p]?.getD p

/-- The same call, writing to the phrase under its new number. -/
def renamedCall (map : List ℕ) : Call → Call
  | .insert k es => .insert ⟨renamed map k.phraseId, k.langSet⟩ es
  | .append k es => .append ⟨renamed map k.phraseId, k.langSet⟩ es
  | .compactAppend k relev score id hash tiles =>
    .compactAppend ⟨renamed map k.phraseId, k.langSet⟩ relev score id hash tiles
  | .renumber ids => .renumber ids
  | .loadBounds bounds => .loadBounds bounds

/-- A call other than `renumber`. -/
def NotRenumber : Call → Prop
  | .renumber _ => False
  | _ => True

/-- Something is stored under the phrase. -/
def HasPhrase (cs : List Call) (p : ℕ) : Prop := ∃ l, Content.run cs ⟨p, l⟩ ≠ none

/-- What the first history leaves under the phrases `p` with `st ≤ p < en`, the second leaves under
`f p`, in the same order of phrases, and leaves nothing else in `st' ≤ q < en'`. -/
structure SameRenamed (f : ℕ → ℕ) (st en st' en' : ℕ) (cs cs' : List Call) : Prop where
  within : ∀ p, st ≤ p → p < en → HasPhrase cs p → st' ≤ f p ∧ f p < en'
  order : ∀ p p', st ≤ p → p < p' → p' < en → HasPhrase cs p → HasPhrase cs p' → f p < f p'
  others : ∀ q, st' ≤ q → q < en' → HasPhrase cs' q → ∃ p, st ≤ p ∧ p < en ∧ HasPhrase cs p ∧ f p = q
  same : ∀ p l, st ≤ p → p < en → HasPhrase cs p →
    (Content.run cs ⟨p, l⟩ = none ↔ Content.run cs' ⟨f p, l⟩ = none) ∧
    ∀ es es', Content.run cs ⟨p, l⟩ = some es → Content.run cs' ⟨f p, l⟩ = some es' →
      ∀ e, e ∈ es ↔ e ∈ es'

end Carmen.Spec
