import Verif.Spec.Boxes

/-!
# Specification: words in between
-/

namespace Carmen.Spec

/-- The mask of the tokens after words were put in between: token `i` is now token `σ i`. -/
def respace (σ : ℕ → ℕ) (mask : ℕ) : ℕ :=
  unionMask (((List.range 32).filter fun i => mask.testBit i).map fun i => 2 ^ σ i)

/-- The phrase match in the longer query. -/
def respaceMatch (σ : ℕ → ℕ) (q : Subquery) : Subquery := { q with mask := respace σ q.mask }

/-- An entry of a result in the longer query. -/
def respaceEntry (σ : ℕ → ℕ) (e : CoalesceEntry) : CoalesceEntry :=
  { e with mask := respace σ e.mask }

/-- A result in the longer query. -/
def respaceContext (σ : ℕ → ℕ) (c : Context) : Context :=
  ⟨respace σ c.mask, c.relev, c.entries.map (respaceEntry σ)⟩

/-- Tokens stay in order, and both queries have at most 32. -/
structure KeepsOrder (σ : ℕ → ℕ) (qs : List Subquery) : Prop where
  mono : StrictMono σ
  before : ∀ q ∈ qs, q.mask < 2 ^ 32
  after : ∀ q ∈ qs, respace σ q.mask < 2 ^ 32

end Carmen.Spec
