import Verif.Spec.Coalesce

/-!
# What coalescing several phrase matches should find, and with which relevance
-/

namespace Carmen.Spec

/-- The number a finite `f64` stands for. -/
def value : F64 → ℚ
  | .fin q => q
  | _ => 0

/-- The relevances of the entries of a context, added up exactly. -/
def entrySum (es : List CoalesceEntry) : ℚ := (es.map fun e => value e.entry.relev).sum

/-- The penalty of a context for the last phrase match: 0.01 if it has no second entry, or one with
a smaller mask than the first. -/
def penalty : List CoalesceEntry → ℚ
  | e0 :: e1 :: _ => if e1.mask < e0.mask then 1 / 100 else 0
  | _ => 1 / 100

/-- The relevance of the context is the sum of the relevances of its entries less `p`, up to
rounding. -/
def RelevIs (c : Context) (p : ℚ) : Prop :=
  c.relev.IsFin ∧ |value c.relev - (entrySum c.entries - p)| ≤ 1 / 2 ^ 39

/-- A stack as `stackable` makes them, as far as tokens and weights go: each phrase match covers
some of at most 32 tokens, no token is covered twice, and weights are between 0 and 1. -/
structure StackOk (stack : List Subquery) : Prop where
  covers : ∀ q ∈ stack, q.mask ≠ 0 ∧ q.mask < 2 ^ 32
  disjoint : stack.Pairwise fun a b => a.mask &&& b.mask = 0
  weights : ∀ q ∈ stack, q.weight.IsFin ∧ q.weight.Valid ∧ 0 ≤ q.weight ∧ q.weight ≤ 1

/-- The first phrase match comes before the second one by zoom, then index number. -/
def Before (a b : Subquery) : Prop :=
  a.store.zoom < b.store.zoom ∨ (a.store.zoom = b.store.zoom ∧ a.idx < b.idx)

/-- The phrase match of the stack that comes last by zoom, then index number. -/
def IsLast (stack : List Subquery) (l : Subquery) : Prop :=
  l ∈ stack ∧ ∀ q ∈ stack, q ≠ l → Before q l

/-- `g` is one of the first 100000 grids returned for the first match key of `q` when the options
are taken to the zoom of its index. -/
def Among (env : Env) (opts : MatchOpts) (q : Subquery) (g : MatchEntry) : Prop :=
  ∃ (adjusted : MatchOpts) (k : KeyWithId) (grids : List MatchEntry),
    env.adjust opts q.store.zoom = some adjusted ∧ q.matchKeys.head? = some k ∧
      env.query q.store k.key adjusted 100000 = some grids ∧ g ∈ grids.take 100000

/-- One grid for every phrase match of the stack, each inside those before it: the phrase matches
are listed by zoom, then index number. -/
structure NestedGrids (env : Env) (opts : MatchOpts) (stack : List Subquery)
    (ps : List (Subquery × MatchEntry)) : Prop where
  all : (ps.map Prod.fst).Perm stack
  order : ps.Pairwise fun a b => Before a.1 b.1
  nested : ps.Pairwise fun a b => TileContains (tileOf a.1 a.2) (tileOf b.1 b.2)
  found : ∀ p ∈ ps, Among env opts p.1 p.2

/-- The first context ranks before the second one, or both rank the same: falling relevance, then
falling score-distance of the first entry. -/
def NotBehind (a b : Context) : Prop :=
  b.relev < a.relev ∨ (b.relev = a.relev ∧ b.first.scoredist ≤ a.first.scoredist)

end Carmen.Spec
