import Mathlib.Data.List.Perm.Basic
import Mathlib.Order.Defs.LinearOrder

/-!
# `MinMaxHeap` (crate `min-max-heap`)

The heap is outside the repository. It is modelled by its array and by any functions on
the array that satisfy the documented laws; theorems quantify over all of them and hence
over every way of breaking ties. Elements are compared through a key, as by the `Ord`
implementations in the code (store.rs:235-239, common.rs:431-435, coalesce.rs:388-396).
-/

namespace Carmen

/-- A lawful min-max heap of elements compared by `key`. -/
structure Heap {α K : Type} [LinearOrder K] (key : α → K) where
  push : List α → α → List α
  /-- `peek_min`. -/
  peekMin : List α → Option α
  /-- `peek_max`. -/
  peekMax : List α → Option α
  /-- `replace_min(e)`. -/
  replaceMin : List α → α → List α
  /-- Assigning through `peek_max_mut` (the guard restores the heap when dropped). -/
  replaceMax : List α → α → List α
  /-- `pop_max` without its return value (which is `peekMax`). -/
  popMax : List α → List α
  /-- `into_vec_desc`. -/
  intoVecDesc : List α → List α
  push_perm : ∀ l a, (push l a).Perm (a :: l)
  peekMin_none : ∀ l, peekMin l = none ↔ l = []
  peekMin_mem : ∀ l m, peekMin l = some m → m ∈ l
  peekMin_le : ∀ l m, peekMin l = some m → ∀ b ∈ l, key m ≤ key b
  peekMax_none : ∀ l, peekMax l = none ↔ l = []
  peekMax_mem : ∀ l m, peekMax l = some m → m ∈ l
  peekMax_le : ∀ l m, peekMax l = some m → ∀ b ∈ l, key b ≤ key m
  replaceMin_perm : ∀ l m a, peekMin l = some m → (m :: replaceMin l a).Perm (a :: l)
  replaceMax_perm : ∀ l m a, peekMax l = some m → (m :: replaceMax l a).Perm (a :: l)
  popMax_perm : ∀ l m, peekMax l = some m → (m :: popMax l).Perm l
  intoVecDesc_perm : ∀ l, (intoVecDesc l).Perm l
  intoVecDesc_sorted : ∀ l, (intoVecDesc l).Pairwise (fun a b => key b ≤ key a)

end Carmen
