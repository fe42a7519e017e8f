import Verif.Spec.EndToEnd
import Verif.Spec.Nested

/-!
# Everything a small request should return
-/

namespace Carmen.Spec

/-- One of the contexts `tree_coalesce_single` makes of the first 80 results for a phrase match
nothing can be put below. -/
def LoneResult (env : Env) (opts : MatchOpts) (pms : List Subquery) (c : Context) : Prop :=
  ∃ q kg o grids all, IsStack pms [q] ∧ ¬ Extendable pms [q] ∧ kg ∈ q.matchKeys ∧
    lookupOpts env opts q kg = some o ∧ env.query q.store kg.key o 80 = some grids ∧
    treeSingle env q o grids kg.id = some all ∧ c ∈ all

/-- Everything that should be returned: what is put together from hits whose tiles lie in each other,
and the contexts of phrase matches that stand alone. -/
def ShouldReturn (env : Env) (opts : MatchOpts) (pms : List Subquery) (c : Context) : Prop :=
  (∃ hs, ¬ Lone pms hs ∧ ContextOf env opts pms hs c) ∨ LoneResult env opts pms c

/-- The bounding boxes of the indexes contain everything that answers. -/
def BoxesCover (env : Env) (opts : MatchOpts) (pms : List Subquery) : Prop :=
  ∀ h : Hit, h.q ∈ pms → h.FirstAnswer env opts → h.InBoxes

/-- Fewer than 800 contexts come back, and fewer than 40 for each match key at the lowest level. -/
structure Short (out : List Context) : Prop where
  all : out.length < 800
  each : ∀ id, (out.filter fun c => decide (c.first.phrasematchId = id)).length < 40

/-- The same grid of the same index and the same tokens, whatever match key it came from. -/
def SameResult (e e' : CoalesceEntry) : Prop :=
  e'.entry = e.entry ∧ e'.matchesLanguage = e.matchesLanguage ∧ e'.distance = e.distance ∧
    e'.scoredist = e.scoredist ∧ e'.tmpId = e.tmpId ∧ e'.idx = e.idx ∧ e'.mask = e.mask

/-- `coalesce` keeps up with the context `c`: it finds a context for the same feature with the same
mask and as many entries, whose entries are at least as relevant. It returns that context, unless it
returns one for the same feature that does not rank behind it, or 40 of them, or the context is 0.25
or more below another consistent one. -/
def KeepsUp (env : Env) (opts : MatchOpts) (stack : List Subquery) (c : Context)
    (out : List Context) : Prop :=
  ∃ c', SameResult c.first c'.first ∧ c'.mask = c.mask ∧ c'.entries.length = c.entries.length ∧
    (∀ e ∈ c.entries, ∃ e' ∈ c'.entries, e'.mask = e.mask ∧ e.entry.relev ≤ e'.entry.relev) ∧
    value c.relev ≤ value c'.relev + penalty c'.entries + 1 / 2 ^ 38 ∧
    (stack.length = 2 → value c.relev ≤ value c'.relev + 1 / 2 ^ 38) ∧
    ConsistentContext env opts stack c' ∧
    (c' ∈ out ∨ (∃ d ∈ out, d.first.tmpId = c'.first.tmpId ∧ NotBehind d c') ∨
      (out.length = 40 ∧ ∀ d ∈ out, NotBehind d c') ∨
      ∃ d, ConsistentContext env opts stack d ∧ (RelevIs d 0 ∨ RelevIs d (penalty d.entries)) ∧
        F64.fle (lit 0.25) (d.relev - c'.relev) = true)

end Carmen.Spec
