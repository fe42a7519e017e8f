import Verif.Spec.Above
import Verif.Props.Exclude

/-!
# C108: with a context come the contexts above it
-/

namespace Carmen
open Spec

section
variable {pms : List Subquery} {env : Env} {opts : MatchOpts}

theorem above_stack {a b : List Subquery} (h : IsStack pms (a ++ b)) : IsStack pms a := by
  refine ⟨fun q hq => h.mem q (List.mem_append_left _ hq), (List.pairwise_append.1 h.types).1,
    (List.pairwise_append.1 h.masks).1, h.neighbours.left_of_append, ?_⟩
  intro q hq
  refine h.root q ?_
  rw [Option.mem_def] at hq ⊢
  rw [List.head?_append, hq]
  rfl

theorem above_notCut {a b : List Subquery} (h : NotCut env opts pms (a ++ b)) :
    NotCut env opts pms a := by
  rintro above q below rfl hne
  exact h above q (below ++ b) (by simp) hne

theorem above_extendable {a b : List Subquery} (h : IsStack pms (a ++ b)) (hb : b ≠ []) :
    Extendable pms a := by
  cases b with
  | nil => exact absurd rfl hb
  | cons q t => exact ⟨q, above_stack (b := t) (by simpa using h)⟩

theorem above_entries {P : Hit → CoalesceEntry → Prop} {hs : List Hit} {pre rest : List CoalesceEntry}
    (h : List.Forall₂ P hs.reverse (pre ++ rest)) :
    ∃ a b, hs = a ++ b ∧ List.Forall₂ P a.reverse rest ∧ List.Forall₂ P b.reverse pre := by
  refine ⟨(hs.reverse.drop pre.length).reverse, (hs.reverse.take pre.length).reverse, ?_, ?_, ?_⟩
  · rw [← List.reverse_append, List.take_append_drop, List.reverse_reverse]
  · rw [List.reverse_reverse]
    have := List.forall₂_drop pre.length h
    rwa [List.drop_left] at this
  · rw [List.reverse_reverse]
    have := List.forall₂_take pre.length h
    rwa [List.take_left] at this

theorem above_map {β : Type} {f : Hit → β} {g : CoalesceEntry → β} {P : Hit → CoalesceEntry → Prop}
    (hp : ∀ h e, P h e → f h = g e) {hs : List Hit} {es : List CoalesceEntry}
    (h : List.Forall₂ P hs.reverse es) : es.reverse.map g = hs.map f := by
  have : hs.reverse.map f = es.map g := by
    generalize hs.reverse = l at h ⊢
    induction h with
    | nil => rfl
    | cons h1 _ ih => rw [List.map_cons, List.map_cons, ih, hp _ _ h1]
  rw [List.map_reverse, ← this, List.map_reverse, List.reverse_reverse]

theorem above_costs {hs : List Hit} {es : List CoalesceEntry}
    (hx : hs.length = 1 → Extendable pms (hs.map Hit.q))
    (h : List.Forall₂ (fun h e => MadeFrom h.q h.grid e ∧ e.phrasematchId = h.kg.id) hs.reverse es) :
    LosesPoints pms hs ↔ Costs es = true := by
  obtain ⟨l, rfl⟩ : ∃ l : List Hit, l.reverse = hs := ⟨hs.reverse, List.reverse_reverse hs⟩
  rw [List.reverse_reverse] at h
  cases h with
  | nil =>
    constructor
    · rintro (⟨h, e, -⟩ | ⟨a, u, w, e, -⟩) <;> simp at e
    · intro h
      exact absurd h (by simp [Costs])
  | @cons lo e0 l es h1 h2 =>
    cases h2 with
    | nil =>
      constructor
      · intro _
        rfl
      · intro _
        exact Or.inl ⟨lo, rfl, hx rfl⟩
    | @cons up e1 l es h2 h3 =>
      have m0 : e0.mask = lo.q.mask := h1.1.2.2.2.2.2.2.2.2.2.2.2
      have m1 : e1.mask = up.q.mask := h2.1.2.2.2.2.2.2.2.2.2.2.2
      have e : (lo :: up :: l).reverse = l.reverse ++ [up, lo] := by simp
      rw [e]
      unfold Costs
      rw [decide_eq_true_eq, m0, m1]
      constructor
      · rintro (⟨h, e, -⟩ | ⟨a, u, w, e, hlt⟩)
        · have := congrArg List.length e
          simp at this
        · obtain ⟨-, e⟩ := List.append_inj' e rfl
          simp only [List.cons.injEq, and_true] at e
          rw [e.1, e.2]
          exact hlt
      · intro hlt
        exact Or.inr ⟨_, up, lo, rfl, hlt⟩

theorem above_contextOf {hs : List Hit} {c : Context} (h : ContextOf env opts pms hs c)
    (h1 : ¬ Lone pms hs) {pre rest : List CoalesceEntry} (he : c.entries = pre ++ rest)
    (hpre : pre ≠ []) (hrest : rest ≠ []) :
    ∃ a b, hs = a ++ b ∧ ¬ Lone pms a ∧ ContextOf env opts pms a (contextAbove rest) := by
  have hent := h.entries
  rw [he] at hent
  obtain ⟨a, b, rfl, ha, hb⟩ := above_entries hent
  have hane : a ≠ [] := by
    rintro rfl
    cases ha
    exact hrest rfl
  have hbne : b ≠ [] := by
    rintro rfl
    cases hb
    exact hpre rfl
  have hst := h.stack
  rw [List.map_append] at hst
  have hx := above_extendable hst (by simpa using hbne)
  have hlone : ¬ Lone pms a := by
    rintro ⟨x, rfl, hn⟩
    exact hn hx
  have hrel : rest.reverse.map (·.entry.relev) = a.map Hit.relev :=
    above_map (fun x e hp => hp.1.2.2.2.2.2.1.symm) ha
  have hmask : rest.reverse.map (·.mask) = a.map (·.q.mask) :=
    above_map (fun x e hp => hp.1.2.2.2.2.2.2.2.2.2.2.2.symm) ha
  refine ⟨a, b, rfl, hlone, hane, above_stack hst, ?_, ha, h.tiles.left_of_append, ?_, ?_, ?_, ?_⟩
  · intro x hx' limit _ h4
    exact h.answers x (List.mem_append_left _ hx') limit (fun hl => absurd hl h1) fun _ => h4 hlone
  · change unionMask (rest.reverse.map (·.mask)) = _
    rw [hmask]
  · intro hn
    rw [above_costs (fun _ => hx) ha] at hn
    change (if Costs rest = true then _ else _) = _
    rw [if_neg hn, hrel]
  · intro hn
    rw [above_costs (fun _ => hx) ha] at hn
    change (if Costs rest = true then _ else _) = _
    rw [if_pos hn, hrel]
  · intro _ x hx'
    exact h.first h1 x (List.mem_append_left _ hx')

end

/-- **C108**: with every context, the contexts of its upper entries are returned. -/
theorem C108_above {env : TreeEnv} {qs : List Subquery} {opts : MatchOpts} (hd : Delivered qs)
    (hfew : FewGroupStacks 2000 qs) (hz : env.chk = true ∨ ZoomsAscend qs)
    (hroom : RoomForGroups qs) {out : List Context}
    (hout : stackAndCoalesce env qs opts = some out) (hlen : Short out) :
    ∀ c ∈ out, ∀ lower upper, c.entries = lower ++ upper → lower ≠ [] → upper ≠ [] →
      contextAbove upper ∈ out := by
  intro c hc lower upper he hl hu
  have h2 : 2 ≤ c.entries.length := by
    rw [he, List.length_append]
    have := List.length_pos_iff.2 hl
    have := List.length_pos_iff.2 hu
    omega
  obtain ⟨hs, n2, hcut, hcx⟩ := several_returned (C91_sound hd hfew hz hout c hc) h2
  obtain ⟨a, b, rfl, hlone, ha⟩ := above_contextOf hcx (not_lone_of_two n2) he hl hu
  rw [List.map_append] at hcut
  exact C91_complete hd hfew hz hroom hout hlen _ (Or.inl ⟨a, hlone, above_notCut hcut, ha⟩)

/-! ## An example -/

example : ∃ out, stackAndCoalesce (listTreeEnv false) growthMatches plainOpts = some out ∧
    (∃ c ∈ out, c.entries.length = 2) ∧
    ∀ c ∈ out, ∀ lower upper, c.entries = lower ++ upper → lower ≠ [] → upper ≠ [] →
      contextAbove upper ∈ out := by
  have h1 : (stackAndCoalesce (listTreeEnv false) growthMatches plainOpts).map
      (fun out => decide (out.length < 40 ∧ ∃ c ∈ out, c.entries.length = 2)) = some true := by
    decide +kernel
  obtain ⟨out, h1, h3⟩ := Option.map_eq_some_iff.1 h1
  obtain ⟨h3, h5⟩ := of_decide_eq_true h3
  have hd : Delivered growthMatches := ⟨by decide +kernel, by decide +kernel, by decide +kernel⟩
  have hroom : RoomForGroups growthMatches :=
    room_of_small (by decide +kernel) (by decide +kernel) (by
      intro q hq kg hk
      simp only [growthMatches, List.mem_cons, List.not_mem_nil, or_false] at hq
      rcases hq with rfl | rfl <;> exact ⟨_, by rw [List.mem_singleton.1 hk]⟩)
  have hz : ZoomsAscend growthMatches := by
    unfold ZoomsAscend
    decide +kernel
  have hfew : FewGroupStacks 2000 growthMatches := few_of_small (by decide +kernel)
  exact ⟨out, h1, h5, C108_above hd hfew (.inr hz) hroom h1 (short_of_few h3)⟩

end Carmen
