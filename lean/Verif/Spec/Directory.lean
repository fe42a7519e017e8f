import Verif.Lemmas.Finish

/-!
# Specification: what builders leave in a directory
-/

namespace Carmen.Spec
open Builder

/-- Databases that any number of builders have written, one after the other, into one directory. Each
of them may have stopped after any number of the rows its `finish` writes: because it was interrupted,
because of an error, or because it never ended. -/
inductive Directory : SMap Bytes Bytes → Prop
  | empty : Directory []
  | build {db : SMap Bytes Bytes} (h : Directory db) (o : IterOrder) (b : Builder) (hb : b.Wf)
      (done : List (Bytes × Bytes)) (hd : done <+: (finishPuts o b).1) :
      Directory (applyPuts db done)

/-- A finished store is one. -/
theorem Directory.finish {o : IterOrder} {b : Builder} {db : SMap Bytes Bytes} (hb : b.Wf)
    (h : finish o b = some db) : Directory db := by
  rw [← (finish_eq_some.1 h).2]
  exact .build .empty o b hb _ (List.prefix_refl _)

theorem Directory.sorted {db : SMap Bytes Bytes} (h : Directory db) : SMap.Sorted db := by
  induction h with
  | empty => exact List.Pairwise.nil
  | build _ _ _ _ _ _ ih => exact applyPuts_sorted ih _

end Carmen.Spec
