import Verif.Props.QueryOrder

/-!
# The first result with a tile and a feature is the most relevant one
-/

namespace Carmen
open Spec

theorem withinRadius_tile {opts : MatchOpts} {radius : F64} {e e' : GridEntry} (hx : e.x = e'.x)
    (hy : e.y = e'.y) : WithinRadius opts radius e ↔ WithinRadius opts radius e' := by
  unfold WithinRadius
  cases opts.proximity with
  | none => rfl
  | some p => simp only [hx, hy]

/-- The same tile and feature. -/
def AtSamePlace (g g' : MatchEntry) : Prop :=
  g'.entry.x = g.entry.x ∧ g'.entry.y = g.entry.y ∧ g'.entry.id = g.entry.id

/-- None of the results has the tile and feature of the other one. -/
def NoneAt (gs : List MatchEntry) (g : MatchEntry) : Prop :=
  ∀ a ∈ gs, ¬ (a.entry.x = g.entry.x ∧ a.entry.y = g.entry.y ∧ a.entry.id = g.entry.id)

/-- The first result with some tile and feature is the most relevant one with it. -/
theorem first_is_best {opts : MatchOpts} {radius : F64} {before after : List MatchEntry}
    {g' : MatchEntry} (hs : (before ++ g' :: after).Pairwise (NotWorse opts radius))
    (hn : NoneAt before g') {g : MatchEntry} (hg : g ∈ before ++ g' :: after)
    (hp : AtSamePlace g g') : g.entry.relev ≤ g'.entry.relev := by
  rcases List.mem_append.1 hg with h | h
  · exact absurd ⟨hp.1.symm, hp.2.1.symm, hp.2.2.symm⟩ (hn g h)
  · rcases List.mem_cons.1 h with rfl | h
    · exact le_rfl
    · have := (List.pairwise_cons.1 (List.pairwise_append.1 hs).2.1).1 g h
      rcases this with h | ⟨-, -, h1, h2, -⟩
      · exact h
      · exact absurd ((withinRadius_tile hp.1 hp.2.1).2 h2) h1

theorem exists_first {gs : List MatchEntry} {g : MatchEntry} (hg : g ∈ gs) :
    ∃ before g' after, gs = before ++ g' :: after ∧ AtSamePlace g g' ∧ NoneAt before g' := by
  let p : MatchEntry → Bool := fun a => decide (a.entry.x = g.entry.x ∧ a.entry.y = g.entry.y ∧
    a.entry.id = g.entry.id)
  cases hf : gs.find? p with
  | none => exact absurd (List.find?_eq_none.1 hf _ hg) (by simp [p])
  | some g' =>
    obtain ⟨hp, before, after, hb, hfirst⟩ := List.find?_eq_some_iff_append.1 hf
    have hp' : AtSamePlace g g' := by
      simp only [p, decide_eq_true_iff] at hp
      exact hp
    refine ⟨before, g', after, hb, hp', ?_⟩
    intro a ha hc
    have := hfirst a ha
    rw [hp'.1, hp'.2.1, hp'.2.2] at hc
    simp [p, hc] at this

end Carmen
