import Verif.Spec.Stack

/-!
# What the stack limit may drop
-/

namespace Carmen.Spec

/-- The numbers of the nodes that can be reached from the root of a tree. -/
inductive InTree (t : StackTree) : ℕ → Prop
  | root {c : ℕ} : c ∈ t.root.children → (t.arena.get c).isSome → InTree t c
  | child {i c : ℕ} {n : StackNode} : InTree t i → t.arena.get i = some n → c ∈ n.children →
      (t.arena.get c).isSome → InTree t c

/-- At least so many complete stacks are in the tree: different leaves that can be reached. -/
def LeavesAtLeast (t : StackTree) (n : ℕ) : Prop :=
  ∃ is : List ℕ, is.Nodup ∧ n ≤ is.length ∧
    ∀ i ∈ is, InTree t i ∧ ∃ m, t.arena.get i = some m ∧ m.isLeaf = true

/-- The phrase matches on the way to a leaf. -/
def LeafStack (t : StackTree) (ls : List Subquery) : Prop :=
  ∃ p m, TreePath t t.root (p ++ [m]) ∧ m.isLeaf = true ∧
    (p ++ [m]).map StackNode.pm = ls.map some

/-- A stack that cannot be followed down the tree in as many ways as it can be chosen from the
phrase matches. -/
def Missing (pms : List Subquery) (t : StackTree) (qs : List Subquery) : Prop :=
  IsStack pms qs ∧ countPaths t t.root qs < (qs.map fun q => pms.count q).prod

end Carmen.Spec
