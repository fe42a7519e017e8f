import Verif.Model.Coalesce

/-!
# Comparing the results of the two implementations of coalesce
-/

namespace Carmen.Spec

/-- The results down to the first one whose relevance is 0.25 or more below the best. -/
def cutOff : List Context → List Context
  | [] => []
  | c :: t => (c :: t).takeWhile fun d => !F64.fle (lit 0.25) (c.relev - d.relev)

/-- An entry without the label telling which match key it answers. -/
def unlabelEntry (e : CoalesceEntry) : CoalesceEntry := { e with phrasematchId := 0 }

/-- A context without these labels. -/
def unlabel (c : Context) : Context := { c with entries := c.entries.map unlabelEntry }

end Carmen.Spec
