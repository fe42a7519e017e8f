import Verif.Spec.Nested

/-!
# Specification: relevance as a share of the query
-/

namespace Carmen.Spec

/-- The shares of the tokens in a mask, added up. -/
def shareOf (share : ℕ → ℚ) (mask : ℕ) : ℚ :=
  ((List.range 32).map fun i => if mask.testBit i then share i else 0).sum

/-- Every phrase match covers some of at most 32 tokens, and its weight is their share of the query, or
at least lies between two such shares. -/
structure WeightsAreShares (low high : ℕ → ℚ) (qs : List Subquery) : Prop where
  covers : ∀ q ∈ qs, q.mask ≠ 0 ∧ q.mask < 2 ^ 32
  weights : ∀ q ∈ qs, q.weight.IsFin ∧ q.weight.Valid ∧ 0 ≤ q.weight ∧ q.weight ≤ 1
  low : ∀ q ∈ qs, shareOf low q.mask ≤ value q.weight
  high : ∀ q ∈ qs, value q.weight ≤ shareOf high q.mask

/-- The relevance of the context is at most the share of what it covers, and at least 0.384 times that
(a grid of the lowest relevance in another language), less 0.01 (for entries that are not in order); up
to rounding. -/
structure RelevIsShare (low high : ℕ → ℚ) (c : Context) : Prop where
  fin : c.relev.IsFin
  low : 384 / 1000 * shareOf low c.mask - 1 / 100 - 1 / 2 ^ 38 ≤ value c.relev
  high : value c.relev ≤ shareOf high c.mask + 1 / 2 ^ 38

end Carmen.Spec
