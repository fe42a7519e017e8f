import Verif.Spec.Boxes

/-!
# Specification: the context of the upper entries of another one
-/

namespace Carmen.Spec

/-- Entries, from the lowest one to the highest one, that cost 0.01: one alone, which something could be
below, or those whose lowest one covers later words than the one above it. -/
def Costs : List CoalesceEntry → Bool
  | [_] => true
  | lower :: upper :: _ => decide (upper.mask < lower.mask)
  | [] => false

/-- The context of the upper entries of another context: they cover their words, and their relevances
are added up from the highest one to the lowest one, less 0.01 if they cost that. -/
def contextAbove (es : List CoalesceEntry) : Context :=
  let sum := sumRelev (es.reverse.map (·.entry.relev))
  ⟨unionMask (es.reverse.map (·.mask)), if Costs es then sum - lit 0.01 else sum, es⟩

end Carmen.Spec
