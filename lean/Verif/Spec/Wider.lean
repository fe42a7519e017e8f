import Verif.Spec.SameBox
import Verif.Spec.Languages

/-!
# Searches in wider boxes
-/

namespace Carmen.Spec

/-- The request has no box, or the point `(u, v)` of the map lies in it. -/
def OnGround (opts : MatchOpts) (u v : ℚ) : Prop :=
  ∀ b, opts.bbox = some b → InArea opts.zoom b u v

/-- The second request asks for all the ground the first one asks for; otherwise they are the same. -/
structure WiderGround (opts opts' : MatchOpts) : Prop extends SameButBox opts opts' where
  ground : ∀ u v, OnGround opts u v → OnGround opts' u v

/-- The request has no box, or the tile of zoom `z` has ground in common with it. -/
def TouchesGround (opts : MatchOpts) (z x y : ℕ) : Prop :=
  ∀ b, opts.bbox = some b → Touches z (x, y) opts.zoom b

/-- The same tiles and features by the same match keys, with the same relevances. -/
structure SameContext (c c' : Context) : Prop where
  parts : List.Forall₂ (fun e e' : CoalesceEntry => e'.entry.x = e.entry.x ∧
    e'.entry.y = e.entry.y ∧ e'.entry.id = e.entry.id ∧ e'.phrasematchId = e.phrasematchId ∧
    e'.idx = e.idx ∧ e'.mask = e.mask ∧ e'.entry.relev = e.entry.relev) c.entries c'.entries
  mask : c'.mask = c.mask
  relev : c'.relev = c.relev

/-- The context was put together from hits of the request, the lowest of which has its tile in the box
of the other request. -/
def ReachesInto (env : Env) (opts opts' : MatchOpts) (pms : List Subquery) (c : Context) : Prop :=
  ∃ above last, ¬ Lone pms (above ++ [last]) ∧ ContextOf env opts' pms (above ++ [last]) c ∧
    TouchesGround opts last.q.store.zoom last.grid.entry.x last.grid.entry.y

end Carmen.Spec
