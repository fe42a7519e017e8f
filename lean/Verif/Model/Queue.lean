import Verif.Model.Heap

/-!
# `ConstrainedPriorityQueue` (gridstore/common.rs:489-542)

The queue is the array of its heap.
-/

namespace Carmen

variable {α K : Type} [LinearOrder K] {key : α → K}

/-- `ConstrainedPriorityQueue::push` (common.rs:499-513): the new heap and the returned
flag. -/
def cpqPush (H : Heap key) (n : ℕ) (q : List α) (e : α) : List α × Bool :=
  if n ≤ q.length then
    match H.peekMin q with
    | some m => if key m < key e then (H.replaceMin q e, true) else (q, false)
    | none => (q, false)
  else (H.push q e, true)

/-- A sequence of pushes on a queue. -/
def cpqPushAll (H : Heap key) (n : ℕ) (q : List α) (es : List α) : List α :=
  es.foldl (fun q e => (cpqPush H n q e).1) q

end Carmen
