import Verif.Spec.Exact

/-!
# Requests whose lookups are answered alike
-/

namespace Carmen.Spec

/-- The answer to the lookup of a match key. -/
def answersTo (env : Env) (opts : MatchOpts) (q : Subquery) (kg : KeyWithId) (n : ℕ) :
    Option (List MatchEntry) :=
  (lookupOpts env opts q kg).bind fun o => env.query q.store kg.key o n

/-- Phrase matches that differ in their stores at most, which have one type and one zoom and answer
all lookups alike. -/
structure SameAnswers (env : Env) (opts opts' : MatchOpts) (q q' : Subquery) : Prop where
  rest : q' = { q with store := q'.store }
  typeId : q'.store.typeId = q.store.typeId
  zoom : q'.store.zoom = q.store.zoom
  answers : ∀ kg ∈ q.matchKeys, ∀ n, answersTo env opts' q' kg n = answersTo env opts q kg n

/-- Phrase matches that differ in their stores and in what their match keys ask for at most. The stores
have one type and one zoom and the match keys are answered alike. The second one scans no range where
the first one does not. -/
structure AlikeKeys (env : Env) (opts opts' : MatchOpts) (q q' : Subquery) : Prop where
  rest : q' = { q with store := q'.store, matchKeys := q'.matchKeys }
  typeId : q'.store.typeId = q.store.typeId
  zoom : q'.store.zoom = q.store.zoom
  keys : List.Forall₂ (fun kg kg' => kg' = { kg with key := kg'.key } ∧
    (WideScan (q', kg') → WideScan (q, kg)) ∧
    ∀ n, answersTo env opts' q' kg' n = answersTo env opts q kg n) q.matchKeys q'.matchKeys

end Carmen.Spec
