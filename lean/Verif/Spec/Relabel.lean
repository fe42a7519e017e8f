import Verif.Spec.Motion

/-!
# Specification: searching indexes with other ids
-/

namespace Carmen.Spec

/-- The phrase match with the index that has its number. -/
def withStore (st : ℕ → Store) (q : Subquery) : Subquery := { q with store := st q.idx }

/-- Two functions that are inverse to each other on ids of 24 bits. -/
structure Relabelling (f f' : ℕ → ℕ) : Prop where
  lt : ∀ i < 2 ^ 24, f i < 2 ^ 24
  lt' : ∀ i < 2 ^ 24, f' i < 2 ^ 24
  left : ∀ i < 2 ^ 24, f' (f i) = i
  right : ∀ i < 2 ^ 24, f (f' i) = i

/-- The second index is of the same kind and holds what the first one holds, with other feature ids. -/
structure RelabelsTo (f : ℕ → ℕ) (s s' : Store) : Prop where
  zoom : s'.zoom = s.zoom
  typeId : s'.typeId = s.typeId
  radius : s'.radius = s.radius
  boxes : s'.bboxes = s.bboxes
  content : ∃ c, StoreWith c s ∧ StoreWith (relabelled (fun id hash => (f id, hash)) c) s' ∧
    ∀ k es e, c k = some es → e ∈ es → e.id < 2 ^ 24

/-- The same tiles by the same match keys with the same relevances, and the other ids; `f idx` is for
the features of the index with that number. -/
structure RelabelledContext (f : ℕ → ℕ → ℕ) (c c' : Context) : Prop where
  parts : List.Forall₂ (fun e e' : CoalesceEntry => e'.entry.x = e.entry.x ∧
    e'.entry.y = e.entry.y ∧ e'.entry.id = f e.idx e.entry.id ∧ e'.phrasematchId = e.phrasematchId ∧
    e'.idx = e.idx ∧ e'.mask = e.mask ∧ e'.entry.relev = e.entry.relev) c.entries c'.entries
  mask : c'.mask = c.mask
  relev : c'.relev = c.relev

end Carmen.Spec
