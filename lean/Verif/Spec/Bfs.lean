import Verif.Spec.Stack

/-!
# What a traversal of the tree of stacks lists
-/

namespace Carmen.Spec

/-- The node reached from `n` by going down from child to child, the children named by their
place in the arena; `none` when there is no such way down. -/
def walk (t : StackTree) : StackNode → List ℕ → Option StackNode
  | n, [] => some n
  | n, c :: p => if c ∈ n.children then (t.arena.get c).bind fun m => walk t m p else none

end Carmen.Spec
