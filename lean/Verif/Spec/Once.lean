import Verif.Model.TreeCoalesce

/-!
# What a context is made of
-/

namespace Carmen.Spec

/-- What a context is made of: for each entry the match key, the tile and the feature. -/
def parts (c : Context) : List (ℕ × ℕ × ℕ × ℕ) :=
  c.entries.map fun e => (e.phrasematchId, e.entry.x, e.entry.y, e.entry.id)

/-- No id belongs to two match keys. -/
def KeysOnce (pms : List Subquery) : Prop :=
  (pms.flatMap fun q => q.matchKeys.map KeyWithId.id).Nodup

end Carmen.Spec
