import Verif.Spec.TreeComplete
import Verif.Spec.Collapse

/-!
# What stacking and coalescing should return, without mention of a tree
-/

namespace Carmen.Spec

/-! ## Stacks -/

/-- A phrase match, the match key used, and a grid. -/
structure Hit where
  q : Subquery
  kg : KeyWithId
  grid : MatchEntry

/-- The tile of a hit. -/
def Hit.tile (h : Hit) : ℕ × ℕ × ℕ := tileOf h.q h.grid

/-- The weighted relevance of a hit. -/
def Hit.relev (h : Hit) : F64 := h.grid.entry.relev * h.q.weight

/-- Some phrase match can be put below the stack. -/
def Extendable (pms qs : List Subquery) : Prop := ∃ q, IsStack pms (qs ++ [q])

/-- There are fewer than `n` stacks nothing can be put below. -/
def FewStacks (n : ℕ) (pms : List Subquery) : Prop :=
  ∀ l : List (List Subquery), l.Nodup →
    (∀ qs ∈ l, qs ≠ [] ∧ IsStack pms qs ∧ ¬ Extendable pms qs) → l.length < n

/-- The scans for the last members of stacks. -/
def lastScans (l : List (List Subquery)) : List (Subquery × KeyWithId) :=
  l.flatMap fun qs => qs.getLast?.toList.flatMap fun q => q.matchKeys.map fun kg => (q, kg)

/-- The scan quotas suffice for all stacks together. -/
def RoomForStacks (pms : List Subquery) : Prop :=
  ∀ l : List (List Subquery), l.Nodup → (∀ qs ∈ l, qs ≠ [] ∧ IsStack pms qs) → RoomFor (lastScans l)

/-- The same without the rule that slow scans do not occur. -/
def RoomToTryStacks (pms : List Subquery) : Prop :=
  ∀ l : List (List Subquery), l.Nodup → (∀ qs ∈ l, qs ≠ [] ∧ IsStack pms qs) →
    RoomToTry (lastScans l)

/-- The scan quotas this scan counts against suffice for all stacks together. -/
def RoomInStacks (pms : List Subquery) (s : Subquery × KeyWithId) : Prop :=
  ∀ l : List (List Subquery), l.Nodup → (∀ qs ∈ l, qs ≠ [] ∧ IsStack pms qs) →
    RoomToTryFor (lastScans l) s

/-! ## Contexts -/

/-- A single phrase match nothing can be put below. -/
def Lone (pms : List Subquery) (hs : List Hit) : Prop :=
  ∃ h, hs = [h] ∧ ¬ Extendable pms [h.q]

/-- The ordering penalty: for a single phrase match which others could be put below, and where the
mask of the last one is greater than the mask of the one above it. -/
def LosesPoints (pms : List Subquery) (hs : List Hit) : Prop :=
  (∃ h, hs = [h] ∧ Extendable pms [h.q]) ∨
    ∃ above upper lower, hs = above ++ [upper, lower] ∧ upper.q.mask < lower.q.mask

/-- The grid is among the first `limit` results for the match key. -/
def Hit.Answers (env : Env) (opts : MatchOpts) (limit : ℕ) (h : Hit) : Prop :=
  h.kg ∈ h.q.matchKeys ∧ ∃ o grids, lookupOpts env opts h.q h.kg = some o ∧
    env.query h.q.store h.kg.key o limit = some grids ∧ h.grid ∈ grids

/-- The grid is the first result for the match key with this tile and feature, and among the first
100000 results. -/
def Hit.FirstAnswer (env : Env) (opts : MatchOpts) (h : Hit) : Prop :=
  h.kg ∈ h.q.matchKeys ∧ ∃ o before after, lookupOpts env opts h.q h.kg = some o ∧
    env.query h.q.store h.kg.key o 100000 = some (before ++ h.grid :: after) ∧
    before.length < 100000 ∧
    ∀ g ∈ before, ¬ (g.entry.x = h.grid.entry.x ∧ g.entry.y = h.grid.entry.y ∧
      g.entry.id = h.grid.entry.id)

/-- The context is put together from these hits, from the lowest type to the highest. -/
structure ContextOf (env : Env) (opts : MatchOpts) (pms : List Subquery) (hs : List Hit)
    (c : Context) : Prop where
  ne : hs ≠ []
  stack : IsStack pms (hs.map Hit.q)
  answers : ∀ h ∈ hs, ∀ limit, (Lone pms hs → limit = 80) → (¬ Lone pms hs → limit = 100000) →
    h.Answers env opts limit
  entries : List.Forall₂ (fun h e => MadeFrom h.q h.grid e ∧ e.phrasematchId = h.kg.id) hs.reverse
    c.entries
  tiles : hs.IsChain fun a b => TileContains a.tile b.tile
  mask : c.mask = unionMask (hs.map (·.q.mask))
  plain : ¬ LosesPoints pms hs → c.relev = sumRelev (hs.map Hit.relev)
  penalty : LosesPoints pms hs → c.relev = sumRelev (hs.map Hit.relev) - lit 0.01
  first : ¬ Lone pms hs → ∀ h ∈ hs, h.FirstAnswer env opts

/-- Some bounding box of the index contains the tile of the hit. -/
def Hit.InBoxes (h : Hit) : Prop :=
  ∃ b ∈ h.q.store.bboxes, b.minX ≤ h.grid.entry.x ∧ h.grid.entry.x ≤ b.maxX ∧
    b.minY ≤ h.grid.entry.y ∧ h.grid.entry.y ≤ b.maxY

/-- Hits that stack up: on a stack of phrase matches, each tile in the one before. A single phrase
match nothing can be put below is left out, that case has its own rules. -/
structure HitsStackUp (env : Env) (opts : MatchOpts) (pms : List Subquery) (hs : List Hit) :
    Prop where
  ne : hs ≠ []
  notLone : ¬ Lone pms hs
  stack : IsStack pms (hs.map Hit.q)
  answers : ∀ h ∈ hs, h.FirstAnswer env opts
  boxes : ∀ h ∈ hs, h.InBoxes
  tiles : hs.IsChain fun a b => TileContains a.tile b.tile

/-- Hits on the same phrase matches with the same match key for the last one. -/
def SameLastScan (hs hs' : List Hit) : Prop :=
  hs.map Hit.q = hs'.map Hit.q ∧ hs.getLast?.map Hit.kg = hs'.getLast?.map Hit.kg

/-! ## Phrase matches as they come from outside -/

/-- Phrase matches as callers hand them over: one match key each, no id twice, and the index number
tells the index and what it must not overlap with. -/
structure Delivered (qs : List Subquery) : Prop where
  one : ∀ q ∈ qs, q.matchKeys.length = 1
  ids : (qs.flatMap fun q => q.matchKeys.map KeyWithId.id).Nodup
  index : ∀ a ∈ qs, ∀ b ∈ qs, a.idx = b.idx →
    a.store = b.store ∧ a.nonOverlapping = b.nonOverlapping

/-- There are fewer than `n` stacks nothing can be put below, where stacks of the same weights,
indexes and masks count as one. -/
def FewGroupStacks (n : ℕ) (pms : List Subquery) : Prop :=
  ∀ l : List (List Subquery), (l.map groupKeys).Nodup →
    (∀ qs ∈ l, qs ≠ [] ∧ IsStack pms qs ∧ ¬ Extendable pms qs) → l.length < n

/-- The scan quotas suffice for all stacks together, where stacks of the same weights, indexes and
masks count as one if they end with the same phrase match. -/
def RoomForGroups (pms : List Subquery) : Prop :=
  ∀ l : List (List Subquery), (l.map fun qs => (groupKeys qs, qs.getLast?)).Nodup →
    (∀ qs ∈ l, qs ≠ [] ∧ IsStack pms qs) → RoomFor (lastScans l)

/-- The same without the rule that slow scans do not occur. -/
def RoomToTryGroups (pms : List Subquery) : Prop :=
  ∀ l : List (List Subquery), (l.map fun qs => (groupKeys qs, qs.getLast?)).Nodup →
    (∀ qs ∈ l, qs ≠ [] ∧ IsStack pms qs) → RoomToTry (lastScans l)

/-- The scan quotas this scan counts against suffice for all stacks together, counted in the same
way. What it does not count against may be spent. -/
def RoomInGroups (pms : List Subquery) (s : Subquery × KeyWithId) : Prop :=
  ∀ l : List (List Subquery), (l.map fun qs => (groupKeys qs, qs.getLast?)).Nodup →
    (∀ qs ∈ l, qs ≠ [] ∧ IsStack pms qs) → RoomToTryFor (lastScans l) s

/-- The scan counts against no quota. -/
def Unlimited (s : Subquery × KeyWithId) : Prop := ¬ (WideScan s ∧ CoversOne s) ∧ ¬ HighScan s

/-- The scan for the last hit is slow, nothing can be put below it, and something is returned with
so much more relevance that no context of these hits has more than three quarters of it. -/
def NotWorthTrying (env : Env) (opts : MatchOpts) (pms : List Subquery) (hs : List Hit)
    (out : List Context) : Prop :=
  ∃ above last, hs = above ++ [last] ∧ SlowScan (last.q, last.kg) ∧
    ¬ Extendable pms (hs.map Hit.q) ∧
    ∃ b ∈ out, ∀ c, ContextOf env opts pms hs c → c.relev ≤ lit 0.75 * b.relev

/-- Hits on phrase matches of the same weights, indexes and masks, with the same match key for the
last one. -/
def SameLastGroup (hs hs' : List Hit) : Prop :=
  hs.map (fun h => (h.q.weight, h.q.idx, h.q.mask)) =
      hs'.map (fun h => (h.q.weight, h.q.idx, h.q.mask)) ∧
    hs.getLast?.map Hit.kg = hs'.getLast?.map Hit.kg

/-- The stack is one of these with something put below. -/
def Continues (tops : List (List Subquery)) (qs : List Subquery) : Prop :=
  ∃ top ∈ tops, top ≠ [] ∧ ∃ q below, qs = top ++ q :: below

/-- The same up to phrase matches of the same weights, indexes and masks. -/
def ContinuesGroup (tops : List (List Subquery)) (qs : List Subquery) : Prop :=
  ∃ top ∈ tops, top ≠ [] ∧ ∃ upper q below, qs = upper ++ q :: below ∧
    groupKeys upper = groupKeys top

/-- There are `n` other stacks that keep this one out of the tree: none of them begins with another one,
up to phrase matches of the same weights, indexes and masks, and none is less relevant, except by
rounding. -/
def Crowded (n : ℕ) (pms qs : List Subquery) : Prop :=
  ∃ l : List (List Subquery), l.length = n ∧
    (l.Pairwise fun a b => ¬ groupKeys a <+: groupKeys b ∧ ¬ groupKeys b <+: groupKeys a) ∧
    ∀ ls ∈ l, IsStack pms ls ∧
      ∃ s v, stackRelev qs = .fin s ∧ stackRelev ls = .fin v ∧ s < v + 1 / 2 ^ 41

/-- All weights are at most 1 and there are at most 62 types. -/
structure FewTypes (pms : List Subquery) : Prop where
  weights : ∀ q ∈ pms, q.weight ≤ 1
  types : (pms.map fun q => q.store.typeId).dedup.length ≤ 62

end Carmen.Spec
