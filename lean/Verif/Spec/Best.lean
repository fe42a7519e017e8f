import Mathlib.Data.List.Perm.Basic
import Mathlib.Order.Defs.LinearOrder

/-!
# Specification: the best n of a collection
-/

namespace Carmen.Spec

/-- `kept` is a choice of the `n` largest elements of `all` (all of them if there are
fewer): the elements left out are none unless `n` are kept, and none of them is larger than
one that is kept. -/
structure IsBest {α K : Type} [LinearOrder K] (key : α → K) (n : ℕ) (all kept out : List α) :
    Prop where
  perm : (kept ++ out).Perm all
  size : kept.length = min n all.length
  best : ∀ k ∈ kept, ∀ d ∈ out, key d ≤ key k

end Carmen.Spec
