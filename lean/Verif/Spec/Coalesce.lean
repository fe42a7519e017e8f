import Verif.Model.Coalesce

/-!
# What a coalesced context is
-/

namespace Carmen.Spec

/-- `g` is a grid returned for the first match key of `q` when the options are taken to the zoom of
its index. -/
def Answers (env : Env) (opts : MatchOpts) (q : Subquery) (g : MatchEntry) : Prop :=
  ∃ (adjusted : MatchOpts) (k : KeyWithId) (grids : List MatchEntry),
    env.adjust opts q.store.zoom = some adjusted ∧ q.matchKeys.head? = some k ∧
      env.query q.store k.key adjusted 100000 = some grids ∧ g ∈ grids

/-- The tile (zoom, x, y) of a grid of a phrase match. -/
def tileOf (q : Subquery) (g : MatchEntry) : ℕ × ℕ × ℕ := (q.store.zoom, g.entry.x, g.entry.y)

/-- The first tile contains the second one: it is at the same or a lower zoom, and it is what the
second one becomes there. -/
def TileContains (a b : ℕ × ℕ × ℕ) : Prop :=
  a.1 ≤ b.1 ∧ a.2.1 = b.2.1 / 2 ^ (b.1 - a.1) ∧ a.2.2 = b.2.2 / 2 ^ (b.1 - a.1)

/-- The union of masks. -/
def unionMask (l : List ℕ) : ℕ := l.foldr (· ||| ·) 0

/-- An entry of a context made from a grid of a phrase match: the grid's feature, tile, hash and
distances, the relevance weighted, the index and mask of the phrase match, and the temporary id made
of the index and the feature's id. -/
def MadeFrom (q : Subquery) (g : MatchEntry) (e : CoalesceEntry) : Prop :=
  e.entry.id = g.entry.id ∧ e.entry.x = g.entry.x ∧ e.entry.y = g.entry.y ∧
    e.entry.score = g.entry.score ∧ e.entry.hash = g.entry.hash ∧
    e.entry.relev = g.entry.relev * q.weight ∧ e.matchesLanguage = g.matchesLanguage ∧
    e.distance = g.distance ∧ e.scoredist = g.scoredist ∧
    e.tmpId = (q.idx * 2 ^ 25 + g.entry.id) % 2 ^ 32 ∧ e.idx = q.idx ∧ e.mask = q.mask

/-- A consistent context: each entry comes from a phrase match of the stack and a grid of its own
query; masks are pairwise disjoint and their union is the mask of the context; the tile of every
entry contains the tile of the first one. -/
def ConsistentContext (env : Env) (opts : MatchOpts) (stack : List Subquery) (c : Context) : Prop :=
  ∃ (q : Subquery) (g : MatchEntry) (rest : List (Subquery × MatchEntry)),
    List.Forall₂ (fun p e => MadeFrom p.1 p.2 e) ((q, g) :: rest) c.entries ∧
    (∀ p ∈ (q, g) :: rest, p.1 ∈ stack ∧ Answers env opts p.1 p.2) ∧
    ((q, g) :: rest).Pairwise (fun a b => a.1.mask &&& b.1.mask = 0) ∧
    c.mask = unionMask (((q, g) :: rest).map (·.1.mask)) ∧
    ∀ p ∈ rest, TileContains (tileOf p.1 p.2) (tileOf q g)

/-- How often the feature id changes along a list, starting from `p`. -/
def idChanges : ℕ → List ℕ → ℕ
  | _, [] => 0
  | p, a :: t => (if p ≠ a then 1 else 0) + idChanges a t

end Carmen.Spec
