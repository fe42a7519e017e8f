import Verif.Spec.Exact

/-!
# A request with more phrase matches
-/

namespace Carmen.Spec

/-- The context is a result for this phrase match alone. -/
def AloneFrom (q : Subquery) (c : Context) : Prop :=
  ∃ e g kg, c.entries = [e] ∧ kg ∈ q.matchKeys ∧ MadeFrom q g e ∧ e.phrasematchId = kg.id ∧
    c.mask = q.mask ∧ c.relev = e.entry.relev

/-- Fewer than 100000 grids answer each match key. -/
def FewAnswers (env : Env) (opts : MatchOpts) (pms : List Subquery) : Prop :=
  ∀ q ∈ pms, ∀ kg ∈ q.matchKeys, ∀ o grids, lookupOpts env opts q kg = some o →
    env.query q.store kg.key o 100000 = some grids → grids.length < 100000

/-- The same feature on the same tile by itself, 0.01 below its own relevance. -/
def LessPoints (c c' : Context) : Prop :=
  ∃ e e', c.entries = [e] ∧ c'.entries = [e'] ∧ e'.entry.x = e.entry.x ∧ e'.entry.y = e.entry.y ∧
    e'.entry.id = e.entry.id ∧ e'.tmpId = e.tmpId ∧ e'.idx = e.idx ∧
    e'.phrasematchId = e.phrasematchId ∧ c'.mask = c.mask ∧ c.relev = e.entry.relev ∧
    c'.relev = e'.entry.relev - lit 0.01

end Carmen.Spec
