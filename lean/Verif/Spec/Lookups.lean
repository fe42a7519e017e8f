import Verif.Model.TreeCoalesce

/-!
# What a search looks up
-/

namespace Carmen.Spec

/-- The lookups of a tree coalesce, in the order in which they are started: for each one the match key,
the phrase match, the options, and whether it is for the match key on its own (at most 80 results) or
to be put together with others (at most 100000). -/
def Lookups (env : TreeEnv) (t : StackTree) (opts : MatchOpts) (ks : List FetchKey) : Prop :=
  ∃ s₀ s, treeInit env t opts = some s₀ ∧ treeLoop env t opts t.arena.nodes.length s₀ = some s ∧
    s.fetched = ks

/-- The lookups of a request. -/
def RequestLookups (env : TreeEnv) (qs : List Subquery) (opts : MatchOpts) (ks : List FetchKey) :
    Prop :=
  ∃ collapsed t, collapse qs = some collapsed ∧ stackable collapsed = some t ∧
    Lookups env t opts ks

end Carmen.Spec
