import Mathlib.Data.List.Basic

/-!
# Specification: grouping by runs

Independent of the grouping iterator: the sequence of keys obtained by calling the key
function on the items one after another, and what a correct grouping is.
-/

namespace Carmen.Spec

/-- The keys obtained by calling the (stateful) key function on the items in order. -/
def keySeq {α K σ : Type} (step : σ → α → K × σ) : σ → List α → List K
  | _, [] => []
  | s, a :: t => (step s a).1 :: keySeq step (step s a).2 t

/-- `gs` is the grouping of `l` into maximal runs of equal keys. -/
structure IsGrouping {α K : Type} (keys : List K) (l : List α) (gs : List (K × List α)) :
    Prop where
  /-- Nothing lost, repeated or reordered. -/
  concat : gs.flatMap Prod.snd = l
  /-- Every item sits in a group labelled with the key it was given. -/
  labels : gs.flatMap (fun g => g.2.map (fun _ => g.1)) = keys
  nonempty : ∀ g ∈ gs, g.2 ≠ []
  /-- Neighbouring groups have different keys. -/
  maximal : gs.IsChain (fun a b => a.1 ≠ b.1)

end Carmen.Spec
