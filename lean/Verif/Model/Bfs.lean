import Verif.Model.Stack

/-!
# The public traversal of gridstore/stackable.rs

`bfs` takes the tree `stackable` made and lists its nodes. It is a loop without a bound, so it
is modelled with a number of rounds; `none` is a loop that has not ended after so many rounds.
-/

namespace Carmen

/-- Pushing the children of a popped node (stackable.rs:41-45). The stack is listed from its top;
a child that is not in the arena any more is skipped. -/
def bfsPush (t : StackTree) (n : StackNode) (rest : List StackNode) : List StackNode :=
  n.children.foldl (fun st c =>
    match t.arena.get c with
    | some m => m :: st
    | none => st) rest

/-- The loop of `bfs` (stackable.rs:38-46): `out` is `node_vec`. -/
def bfsLoop (t : StackTree) : ℕ → List StackNode → List StackNode → Option (List StackNode)
  | _, [], out => some out
  | 0, _ :: _, _ => none
  | f + 1, n :: rest, out => bfsLoop t f (bfsPush t n rest) (out ++ [n])

/-- `bfs` (stackable.rs:31-48), for a number of rounds of its loop. -/
def bfs (rounds : ℕ) (t : StackTree) : Option (List StackNode) := bfsLoop t rounds [t.root] []

end Carmen
