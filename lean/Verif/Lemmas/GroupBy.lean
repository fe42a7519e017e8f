import Verif.Model.Common
import Verif.Spec.GroupBy

namespace Carmen
open Spec

section
variable {α K σ : Type} [DecidableEq K]

/-- Invariant of the grouping iterator with a running group. -/
theorem groupByAux_some (step : σ → α → K × σ) (l : List α) :
    ∀ (s : σ) (o : K) (run : List α), run ≠ [] →
      ∃ g gs, groupByAux step s (some o) run l = (o, run ++ g) :: gs ∧
        IsGrouping (run.map (fun _ => o) ++ keySeq step s l) (run ++ l)
          ((o, run ++ g) :: gs) := by
  induction l with
  | nil =>
    intro s o run hr
    refine ⟨[], [], by simp [groupByAux], ⟨by simp, by simp [keySeq], ?_, ?_⟩⟩
    · simpa using hr
    · simp
  | cons v vs ih =>
    intro s o run hr
    rw [groupByAux]
    by_cases h : o = (step s v).1
    · rw [if_neg (by simpa using h)]
      obtain ⟨g, gs, h1, h2⟩ := ih (step s v).2 o (run ++ [v]) (by simp)
      refine ⟨v :: g, gs, by simpa using h1, ?_⟩
      have e1 : (run ++ [v]) ++ vs = run ++ v :: vs := by simp
      have e2 : (run ++ [v]).map (fun _ => o) ++ keySeq step (step s v).2 vs
          = run.map (fun _ => o) ++ keySeq step s (v :: vs) := by
        simp [keySeq, h]
      have e3 : (run ++ [v]) ++ g = run ++ v :: g := by simp
      rw [e1, e2, e3] at h2
      exact h2
    · rw [if_pos (by simpa using h)]
      obtain ⟨g, gs, h1, h2⟩ := ih (step s v).2 (step s v).1 [v] (by simp)
      refine ⟨[], (( (step s v).1, [v] ++ g) :: gs), by simpa using h1, ?_⟩
      obtain ⟨c1, c2, c3, c4⟩ := h2
      refine ⟨?_, ?_, ?_, ?_⟩
      · simp only [List.flatMap_cons, List.append_nil] at c1 ⊢
        rw [c1]; simp
      · simp only [List.flatMap_cons, List.append_nil] at c2 ⊢
        rw [c2]; simp [keySeq]
      · intro x hx
        rcases List.mem_cons.1 hx with rfl | hx
        · simpa using hr
        · exact c3 x hx
      · rw [List.isChain_cons_cons]
        exact ⟨h, c4⟩

theorem groupByS_isGrouping (step : σ → α → K × σ) (s : σ) (l : List α) :
    IsGrouping (keySeq step s l) l (groupByS step s l) := by
  unfold groupByS
  cases l with
  | nil => exact ⟨rfl, rfl, by simp [groupByAux], by simp [groupByAux]⟩
  | cons v vs =>
    rw [groupByAux]
    obtain ⟨g, gs, h1, h2⟩ := groupByAux_some step vs (step s v).2 (step s v).1 [v] (by simp)
    simp only [List.nil_append]
    rw [h1]
    simpa [keySeq] using h2

omit [DecidableEq K] in
theorem keySeq_pure (key : α → K) (l : List α) :
    keySeq (fun (_ : Unit) a => (key a, ())) () l = l.map key := by
  induction l with
  | nil => rfl
  | cons a t ih => simp [keySeq, ih]

theorem groupBy_isGrouping (key : α → K) (l : List α) :
    IsGrouping (l.map key) l (groupBy key l) := by
  have h := groupByS_isGrouping (fun (_ : Unit) a => (key a, ())) () l
  rw [keySeq_pure] at h
  exact h

theorem groupBy_concat (key : α → K) (l : List α) : (groupBy key l).flatMap Prod.snd = l :=
  (groupBy_isGrouping key l).concat

omit [DecidableEq K] in
/-- Items of a group have the key of the group. -/
theorem isGrouping_key_eq {key : α → K} :
    ∀ {gs : List (K × List α)} {l : List α}, IsGrouping (l.map key) l gs →
      ∀ g ∈ gs, ∀ a ∈ g.2, key a = g.1 := by
  intro gs l h
  have hl := h.labels
  rw [← h.concat, List.map_flatMap] at hl
  have : ∀ gs : List (K × List α),
      gs.flatMap (fun g => g.2.map (fun _ => g.1)) = gs.flatMap (fun g => g.2.map key) →
      ∀ g ∈ gs, ∀ a ∈ g.2, key a = g.1 := by
    intro gs
    induction gs with
    | nil => intro _ g hg; simp at hg
    | cons x xs ih =>
      intro he g hg a ha
      simp only [List.flatMap_cons] at he
      obtain ⟨h1, h2⟩ := List.append_inj he (by simp)
      rcases List.mem_cons.1 hg with rfl | hg
      · have := List.map_inj_left.1 h1 a ha
        exact this.symm
      · exact ih h2 g hg a ha
  exact this gs hl

theorem groupBy_key {key : α → K} {l : List α} {g : K × List α} (hg : g ∈ groupBy key l)
    {a : α} (ha : a ∈ g.2) : key a = g.1 :=
  isGrouping_key_eq (groupBy_isGrouping key l) g hg a ha

end

end Carmen
