import Verif.Model.TreeCoalesce

/-!
# The order of work in tree coalesce

What it means that one node of the tree is to be worked on before another.
-/

namespace Carmen.Spec

/-- Some bounding box of the index contains the tile. -/
def Covers (s : Store) (p : ℕ × ℕ) : Prop :=
  ∃ b ∈ s.bboxes, (b.minX ≤ p.1 ∧ p.1 ≤ b.maxX) ∧ (b.minY ≤ p.2 ∧ p.2 ≤ b.maxY)

/-- The proximity point of the request, at the zoom of the index, is in a box of the index. -/
def AtPoint (env : Env) (opts : MatchOpts) (s : Store) : Prop :=
  ∃ o p, env.adjust opts s.zoom = some o ∧ o.proximity = some p ∧ Covers s p

/-- The first is to be worked on strictly before the second: it can lead to a higher relevance; or
to the same one and only it has the proximity point inside; or they agree on both and its index has
the higher score. -/
def Outranks (env : Env) (opts : MatchOpts) (a b : Step) : Prop :=
  b.node.maxRelev < a.node.maxRelev ∨
    (a.node.maxRelev = b.node.maxRelev ∧
      ((AtPoint env opts a.q.store ∧ ¬ AtPoint env opts b.q.store) ∨
        ((AtPoint env opts a.q.store ↔ AtPoint env opts b.q.store) ∧
          b.q.store.maxScore < a.q.store.maxScore)))

/-- The relevance noted for a step is the most it can lead to: the weight of its phrase match, on
top of the best of the contexts it goes on from. -/
def NotesPossible (s : Step) : Prop :=
  (s.prev = none → s.possible = s.q.weight) ∧
  ∀ cs, s.prev = some cs → ∃ best, s.possible = best + s.q.weight ∧ best ≠ .nan ∧
    (best = 0 ∨ 0 < best ∧ ∃ c ∈ cs, c.relev = best) ∧
    ∀ c ∈ cs, c.relev ≠ .nan → c.relev ≤ best

/-- A node without parents and without children. -/
def Lonely (s : Step) : Prop := s.prev = none ∧ s.node.children = []

/-- There is something to do for a step that was given these scans: scans, or combining. -/
def HasWork (p : Step × List FetchKey) : Prop := p.2 ≠ [] ∨ ¬ Lonely p.1

/-- The states of the loop of tree coalesce. -/
inductive TreeReached (env : TreeEnv) (t : StackTree) (opts : MatchOpts) : TreeState → Prop
  | init {s} : treeInit env t opts = some s → TreeReached env t opts s
  | round {s s'} : TreeReached env t opts s → s.steps ≠ [] → s.stopped = none →
      treeRound env t opts s = some s' → TreeReached env t opts s'

/-- One round: the steps it takes, each with the scans it queues for it. -/
structure BestFirst (env : TreeEnv) (opts : MatchOpts) (s s' : TreeState)
    (taken : List (Step × List FetchKey)) : Prop where
  /-- Steps come from the heap, and the others stay there or stop the loop. -/
  steps : s.steps.Perm (taken.map Prod.fst ++ (s'.stopped.toList ++ s'.left))
  /-- Scans are those of the steps taken, in this order. -/
  scans : s'.fetched = s.fetched ++ taken.flatMap Prod.snd
  /-- Nothing is taken before something better. -/
  order : (taken.map Prod.fst ++ s'.stopped.toList).Pairwise
    fun a b => ¬ Outranks env.toEnv opts b a
  /-- What is left is not better than what was taken. -/
  left : ∀ a ∈ taken.map Prod.fst ++ s'.stopped.toList, ∀ b ∈ s'.left,
    ¬ Outranks env.toEnv opts b a
  /-- Nothing is taken that cannot beat one of a full list of results. -/
  worth : ∀ p ∈ taken, s.contexts.length < 800 ∨
    ∃ c ∈ s.contexts, F64.fle p.1.node.maxRelev c.relev = false
  /-- The loop ends with a full list of results none of which can be beaten. -/
  stops : ∀ st, s'.stopped = some st → 800 ≤ s.contexts.length ∧
    ∀ a ∈ st :: s'.left, ∀ c ∈ s.contexts, a.node.maxRelev ≤ c.relev
  /-- A round has at most eight steps with something to do. -/
  few : ∀ l : List (Step × List FetchKey), l.Sublist taken →
    (∀ p ∈ l, HasWork p) → l.length ≤ 8
  /-- A round ends at the eighth, or at the end of the heap, or with the loop. -/
  full : s'.left = [] ∨ s'.stopped.isSome = true ∨
    ∃ l : List (Step × List FetchKey), l.Sublist taken ∧ (∀ p ∈ l, HasWork p) ∧ l.length = 8

end Carmen.Spec
