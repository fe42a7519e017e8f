import Verif.Model.Stack

/-!
# What the stacks of a list of phrase matches should be
-/

namespace Carmen

/-- A way down the tree from a node: the nodes passed, without the first. -/
def TreePath (t : StackTree) : StackNode → List StackNode → Prop
  | _, [] => True
  | n, m :: p => (∃ c ∈ n.children, t.arena.get c = some m) ∧ TreePath t m p

/-- The relevance of a stack: its weights added up in order. -/
def stackRelev (qs : List Subquery) : F64 := qs.foldl (fun r q => r + q.weight) 0

/-- All tokens a stack covers. -/
def stackMask (qs : List Subquery) : ℕ := qs.foldl (fun m q => m ||| q.mask) 0

/-- A chain of phrase matches with increasing types, disjoint tokens and no neighbouring conflict;
the root of the tree counts as a phrase match of index 129. -/
structure IsStack (pms qs : List Subquery) : Prop where
  mem : ∀ q ∈ qs, q ∈ pms
  types : qs.Pairwise fun a b => a.store.typeId < b.store.typeId
  masks : qs.Pairwise fun a b => a.mask &&& b.mask = 0
  neighbours : qs.IsChain fun a b => a.idx ∉ b.nonOverlapping
  root : ∀ q ∈ qs.head?, 129 ∉ q.nonOverlapping

/-- In how many ways the stack `qs` can be followed down from a node. -/
def countPaths (t : StackTree) : StackNode → List Subquery → ℕ
  | _, [] => 1
  | n, q :: qs => (n.children.map fun c =>
      match t.arena.get c with
      | some m => if m.pm = some q then countPaths t m qs else 0
      | none => 0).sum

end Carmen
