import Verif.Spec.Boxes

/-!
# Specification: other numbers for indexes and match keys
-/

namespace Carmen.Spec

/-- Other numbers for indexes and other ids for match keys. -/
structure Renumbering where
  idx : ℕ → ℕ
  id : ℕ → ℕ

/-- Different ones stay different; 129 is what the root of the tree has for an index number. -/
structure Renumbering.Ok (r : Renumbering) : Prop where
  idx : Function.Injective r.idx
  id : Function.Injective r.id
  root : r.idx 129 = 129

/-- The match key with its other id. -/
def Renumbering.key (r : Renumbering) (kg : KeyWithId) : KeyWithId := { kg with id := r.id kg.id }

/-- The phrase match with the other numbers. -/
def Renumbering.phrasematch (r : Renumbering) (q : Subquery) : Subquery :=
  { q with idx := r.idx q.idx, nonOverlapping := q.nonOverlapping.map r.idx,
           matchKeys := q.matchKeys.map r.key }

/-- The entry of a result with the other numbers; its temporary id is made of the number of the index
and the id of the feature. -/
def Renumbering.entry (r : Renumbering) (e : CoalesceEntry) : CoalesceEntry :=
  { e with idx := r.idx e.idx, tmpId := (r.idx e.idx * 2 ^ 25 + e.entry.id) % 2 ^ 32,
           phrasematchId := r.id e.phrasematchId }

/-- A result with the other numbers. -/
def Renumbering.context (r : Renumbering) (c : Context) : Context :=
  ⟨c.mask, c.relev, c.entries.map r.entry⟩

end Carmen.Spec
