import Verif.Lemmas.StepOrder

/-!
# The relevance a step can lead to
-/

namespace Carmen
open Spec

theorem bestRelev_go (cs : List Context) (r : F64) (hr : r ≠ .nan) :
    let b := cs.foldl (fun r c => if F64.flt r c.relev then c.relev else r) r
    b ≠ .nan ∧ r ≤ b ∧ (b = r ∨ r < b ∧ ∃ c ∈ cs, c.relev = b) ∧
      ∀ c ∈ cs, c.relev ≠ .nan → c.relev ≤ b := by
  induction cs generalizing r with
  | nil => exact ⟨hr, le_rfl, Or.inl rfl, fun c hc => by cases hc⟩
  | cons a t ih =>
    rw [List.foldl_cons]
    by_cases hlt : F64.flt r a.relev = true
    · rw [if_pos hlt]
      unfold F64.flt at hlt
      obtain ⟨-, ha, hlt⟩ := of_decide_eq_true hlt
      obtain ⟨h1, h2, h3, h4⟩ := ih a.relev ha
      refine ⟨h1, hlt.le.trans h2, Or.inr ⟨lt_of_lt_of_le hlt h2, ?_⟩, ?_⟩
      · rcases h3 with h3 | ⟨-, c, hc, h3⟩
        · exact ⟨a, by simp, h3.symm⟩
        · exact ⟨c, List.mem_cons_of_mem _ hc, h3⟩
      · intro c hc hn
        rcases List.mem_cons.1 hc with rfl | hc
        · exact h2
        · exact h4 c hc hn
    · rw [if_neg hlt]
      obtain ⟨h1, h2, h3, h4⟩ := ih r hr
      refine ⟨h1, h2, ?_, ?_⟩
      · rcases h3 with h3 | ⟨h3, c, hc, h5⟩
        · exact Or.inl h3
        · exact Or.inr ⟨h3, c, List.mem_cons_of_mem _ hc, h5⟩
      · intro c hc hn
        rcases List.mem_cons.1 hc with rfl | hc
        · refine le_trans (not_lt.1 fun hl => hlt ?_) h2
          unfold F64.flt
          exact decide_eq_true ⟨hr, hn, hl⟩
        · exact h4 c hc hn

theorem newStep_possible {env : Env} {opts : MatchOpts} {ix : ℕ} {node : StackNode} {q : Subquery}
    {prevZoom : ℕ} {s : Step}
    (h : newStep env opts ix node q none prevZoom q.weight = some s) : NotesPossible s := by
  obtain ⟨_, _, h1, h2, _, _, h3⟩ := newStep_some h
  refine ⟨fun _ => by rw [h3, h1], fun cs hcs => ?_⟩
  rw [h2] at hcs
  cases hcs

theorem treeInit_possible {env : TreeEnv} {t : StackTree} {opts : MatchOpts} {s : TreeState}
    (h : treeInit env t opts = some s) : ∀ st ∈ s.steps, NotesPossible st := by
  unfold treeInit at h
  split at h
  · cases h
  · rw [Option.map_eq_some_iff] at h
    obtain ⟨ss, h1, h⟩ := h
    cases h
    intro st hst
    have hst := (pushAll_perm _ _ _).mem_iff.1 hst
    rw [List.append_nil] at hst
    unfold firstSteps at h1
    rw [Option.map_eq_some_iff] at h1
    obtain ⟨os, h1, h2⟩ := h1
    rw [← h2] at hst
    obtain ⟨c, _, hc⟩ := mem_of_mapM_filterMap h1 hst
    cases hg : t.arena.get c with
    | none => rw [hg] at hc; cases hc
    | some node =>
      rw [hg] at hc
      simp only [Option.bind_eq_some_iff, Option.map_eq_some_iff] at hc
      obtain ⟨q, _, st', h3, h4⟩ := hc
      cases h4
      exact newStep_possible h3

theorem expandStep_possible {env : TreeEnv} {t : StackTree} {opts : MatchOpts}
    {cache : HMap ℕ (List MatchEntry)} {step : Step} {r : List Context × List Step}
    (h : expandStep env t opts cache step = some r) : ∀ st ∈ r.2, NotesPossible st := by
  obtain ⟨_, groups, _, _, h, _⟩ := expandStep_some h
  unfold nextSteps at h
  intro st hst
  split at h
  · rw [← Option.some.inj h] at hst
    simp at hst
  · rename_i hne
    have hstate : stateContexts step groups = groups.flatten := by
      unfold stateContexts at hne ⊢
      split_ifs at hne ⊢ with hc
      · rfl
      · exact absurd rfl hne
    rw [hstate, Option.map_eq_some_iff] at h
    obtain ⟨os, h1, h2⟩ := h
    rw [← h2] at hst
    obtain ⟨c, _, hc⟩ := mem_of_mapM_filterMap h1 hst
    unfold nextStep at hc
    cases hg : t.arena.get c with
    | none => rw [hg] at hc; cases hc
    | some node =>
      rw [hg] at hc
      simp only [Option.bind_eq_bind, Option.bind_eq_some_iff] at hc
      obtain ⟨q, _, boxes, _, hc⟩ := hc
      split at hc
      · rw [Option.map_eq_some_iff] at hc
        obtain ⟨st', h3, h4⟩ := hc
        cases h4
        obtain ⟨_, _, n1, n2, _, _, n3⟩ := newStep_some h3
        refine ⟨fun hn => ?_, fun cs hcs => ?_⟩
        · rw [n2] at hn
          cases hn
        · rw [n2] at hcs
          cases hcs
          obtain ⟨b0, _, b1, b2⟩ := bestRelev_go groups.flatten 0 F64.noConfusion
          exact ⟨bestRelev groups.flatten, by rw [n3, n1], b0, b1, b2⟩
      · cases hc

theorem Round.possible {env : TreeEnv} {t : StackTree} {opts : MatchOpts} {s s' : TreeState}
    {taken : List Step} {keys : List FetchKey} {results : List Fetched}
    {expanded : List (List Context × List Step)}
    (hr : Round env t opts s s' taken keys results expanded)
    (hs : ∀ st ∈ s.steps, NotesPossible st) : ∀ st ∈ s'.steps, NotesPossible st := by
  intro st hst
  rcases List.mem_append.1 (hr.next.mem_iff.1 hst) with h1 | h1
  · obtain ⟨r, hr1, hr2⟩ := List.mem_flatMap.1 h1
    exact mapM_forall (fun _ _ h => expandStep_possible h) hr.grown r hr1 st hr2
  · exact hs st (hr.steps.mem_iff.2 (by simp [h1]))

theorem reached_possible {env : TreeEnv} {t : StackTree} {opts : MatchOpts} {s : TreeState}
    (h : TreeReached env t opts s) : ∀ st ∈ s.steps, NotesPossible st := by
  induction h with
  | init h => exact treeInit_possible h
  | round _ _ _ h ih =>
    obtain ⟨taken, keys, results, expanded, hr⟩ := treeRound_round h
    exact hr.possible ih

end Carmen
