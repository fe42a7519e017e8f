import Verif.Model.TreeCoalesce
import Verif.Spec.Stack
import Verif.Spec.Coalesce

/-!
# What tree coalesce should return and read
-/

namespace Carmen.Spec

/-! ## Scans -/

/-- A scan over a range of at least two phrases. -/
def IsRangeScan (k : FetchKey) : Prop :=
  ∃ first last, k.kg.key.phrase = .range first last ∧ first + 1 < last ∧ last < 2 ^ 32

/-- The phrase match covers exactly one of the 32 possible tokens. -/
def IsOneToken (k : FetchKey) : Prop := ∃ i < 32, k.q.mask = 2 ^ i

/-- A scan of an index of zoom 14 or more which is not limited to the surroundings. -/
def IsHighZoom (k : FetchKey) : Prop := 14 ≤ k.q.store.zoom ∧ k.kg.nearbyOnly = false

/-- `p` holds of at most `n` members. -/
def AtMost {α : Type} (n : ℕ) (p : α → Prop) (l : List α) : Prop :=
  ∀ s : List α, s.Sublist l → (∀ a ∈ s, p a) → s.length ≤ n

/-! ## Contexts -/

/-- One level of a stack: the node of the tree, its phrase match, and the match key and the grid
used for it. -/
structure Level where
  node : StackNode
  q : Subquery
  kg : KeyWithId
  grid : MatchEntry

/-- The options to look up a match key of a phrase match with: at the zoom of its index, and limited
to the surroundings of the proximity point if the match key says so. -/
def lookupOpts (env : Env) (opts : MatchOpts) (q : Subquery) (kg : KeyWithId) : Option MatchOpts :=
  (env.adjust opts q.store.zoom).bind fun o =>
    match kg.nearbyOnly, env.chk with
    | false, _ => some o
    | true, true => o.withNearbyOnlyChecked
    | true, false => some o.withNearbyOnly

/-- The grid is among the first `limit` results for the match key, which belongs to the phrase match
of the node. -/
def Level.Answers (env : Env) (opts : MatchOpts) (limit : ℕ) (l : Level) : Prop :=
  l.node.pm = some l.q ∧ l.kg ∈ l.q.matchKeys ∧
    ∃ o grids, lookupOpts env opts l.q l.kg = some o ∧
      env.query l.q.store l.kg.key o limit = some grids ∧ l.grid ∈ grids

/-- The grid of the level is the first result for the match key with this tile and feature, and
among the first 100000 results. -/
def Level.FirstAnswer (env : Env) (opts : MatchOpts) (l : Level) : Prop :=
  l.node.pm = some l.q ∧ l.kg ∈ l.q.matchKeys ∧
    ∃ o before after, lookupOpts env opts l.q l.kg = some o ∧
      env.query l.q.store l.kg.key o 100000 = some (before ++ l.grid :: after) ∧
      before.length < 100000 ∧
      ∀ g ∈ before, ¬ (g.entry.x = l.grid.entry.x ∧ g.entry.y = l.grid.entry.y ∧
        g.entry.id = l.grid.entry.id)

/-- The weighted relevance of a level. -/
def Level.relev (l : Level) : F64 := l.grid.entry.relev * l.q.weight

/-- The tile of a level. -/
def Level.tile (l : Level) : ℕ × ℕ × ℕ := tileOf l.q l.grid

/-- Relevances added up, from the root down. -/
def sumRelev : List F64 → F64
  | [] => 0
  | a :: t => t.foldl (· + ·) a

/-- A path of one node that has no children. -/
def Alone (ls : List Level) : Prop := ∃ l, ls = [l] ∧ l.node.children = []

/-- The ordering penalty: for a single level with children, and where the last level has a greater
mask than the one above it. -/
def Penalized (ls : List Level) : Prop :=
  (∃ l, ls = [l] ∧ l.node.children ≠ []) ∨
    ∃ above upper lower, ls = above ++ [upper, lower] ∧ upper.q.mask < lower.q.mask

/-- The context is put together from these levels, from the root of the tree down. -/
structure StackedFrom (env : Env) (t : StackTree) (opts : MatchOpts) (ls : List Level)
    (c : Context) : Prop where
  ne : ls ≠ []
  path : TreePath t t.root (ls.map Level.node)
  answers : ∀ l ∈ ls, ∀ limit, (Alone ls → limit = 80) → (¬ Alone ls → limit = 100000) →
    l.Answers env opts limit
  entries : List.Forall₂ (fun l e => MadeFrom l.q l.grid e ∧ e.phrasematchId = l.kg.id) ls.reverse
    c.entries
  tiles : ls.IsChain fun a b => TileContains a.tile b.tile
  mask : c.mask = unionMask (ls.map (·.q.mask))
  plain : ¬ Penalized ls → c.relev = sumRelev (ls.map Level.relev)
  penalty : Penalized ls → c.relev = sumRelev (ls.map Level.relev) - lit 0.01
  first : ¬ Alone ls → ∀ l ∈ ls, l.FirstAnswer env opts

/-! ## Assumptions about phrase matches -/

/-- Match keys with the same id are the same scan. -/
def IdsUnique (pms : List Subquery) : Prop :=
  ∀ q₁ ∈ pms, ∀ q₂ ∈ pms, ∀ k₁ ∈ q₁.matchKeys, ∀ k₂ ∈ q₂.matchKeys, k₁.id = k₂.id →
    q₁.store = q₂.store ∧ k₁.key = k₂.key ∧ k₁.nearbyOnly = k₂.nearbyOnly

/-- Higher types are at the same or a higher zoom, by less than 16 levels. -/
def ZoomsAscend (pms : List Subquery) : Prop :=
  ∀ a ∈ pms, ∀ b ∈ pms, a.store.typeId < b.store.typeId →
    a.store.zoom ≤ b.store.zoom ∧ b.store.zoom < a.store.zoom + 16

/-- Weights are finite, representable and not negative. -/
def WeightsOk (pms : List Subquery) : Prop :=
  ∀ q ∈ pms, q.weight.IsFin ∧ q.weight.Valid ∧ 0 ≤ q.weight

end Carmen.Spec
