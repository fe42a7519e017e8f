import Verif.Spec.Exchange
import Verif.Props.Above

/-!
# C109: what is below an entry does not depend on what is above it
-/

namespace Carmen
open Spec

theorem delivered_by_id {qs : List Subquery} (hd : Delivered qs) {a b : Subquery} (ha : a ∈ qs)
    (hb : b ∈ qs) {k k' : KeyWithId} (hk : k ∈ a.matchKeys) (hk' : k' ∈ b.matchKeys)
    (e : k.id = k'.id) : a = b := by
  by_contra hne
  have hp := (List.nodup_flatMap.1 hd.ids).2
  haveI : Std.Symm (Function.onFun List.Disjoint
      fun q : Subquery => q.matchKeys.map KeyWithId.id) := ⟨fun _ _ h => h.symm⟩
  have := hp.forall ha hb hne
  exact this (List.mem_map_of_mem hk) (e ▸ List.mem_map_of_mem hk')

section
variable {pms : List Subquery} {env : Env} {opts : MatchOpts}

theorem exchange_split {P : Hit → CoalesceEntry → Prop} {hs : List Hit} {lower upper : List CoalesceEntry}
    {x : CoalesceEntry} (hes : List.Forall₂ P hs.reverse (lower ++ x :: upper)) :
    ∃ a h b, hs = a ++ h :: b ∧ List.Forall₂ P a.reverse upper ∧ P h x ∧
      List.Forall₂ P b.reverse lower := by
  obtain ⟨a, b, rfl, ha, hb⟩ := above_entries hes
  obtain ⟨l, rfl⟩ : ∃ l : List Hit, l.reverse = a := ⟨a.reverse, List.reverse_reverse a⟩
  rw [List.reverse_reverse] at ha
  cases ha with
  | @cons h _ l _ h1 h2 =>
    exact ⟨l.reverse, h, b, by simp, by rwa [List.reverse_reverse], h1, hb⟩

theorem exchange_stack {a a' b b' : List Subquery} {q : Subquery} (h : IsStack pms (a ++ q :: b))
    (h' : IsStack pms (a' ++ q :: b')) (hm : ∀ u ∈ a', ∀ l ∈ b, u.mask &&& l.mask = 0) :
    IsStack pms (a' ++ q :: b) := by
  obtain ⟨-, t2, -⟩ := List.pairwise_append.1 h.types
  obtain ⟨t1, -, t3⟩ := List.pairwise_append.1 h'.types
  obtain ⟨-, m2, -⟩ := List.pairwise_append.1 h.masks
  obtain ⟨m1, -, m3⟩ := List.pairwise_append.1 h'.masks
  refine ⟨?_, ?_, ?_, ?_, ?_⟩
  · intro x hx
    rcases List.mem_append.1 hx with hx | hx
    · exact h'.mem x (List.mem_append_left _ hx)
    · exact h.mem x (List.mem_append_right _ hx)
  · refine List.pairwise_append.2 ⟨t1, t2, fun u hu l hl => ?_⟩
    have hq := t3 u hu q List.mem_cons_self
    rcases List.mem_cons.1 hl with rfl | hl
    · exact hq
    · exact hq.trans ((List.pairwise_cons.1 t2).1 l hl)
  · refine List.pairwise_append.2 ⟨m1, m2, fun u hu l hl => ?_⟩
    rcases List.mem_cons.1 hl with rfl | hl
    · exact m3 u hu _ List.mem_cons_self
    · exact hm u hu l hl
  · exact List.isChain_split.2 ⟨(List.isChain_split.1 h'.neighbours).1,
      (List.isChain_split.1 h.neighbours).2⟩
  · intro x hx
    refine h'.root x ?_
    cases a' with
    | nil => exact hx
    | cons y t => exact hx

theorem exchange_contextOf (hd : Delivered pms) {hs hs' : List Hit} {c c' : Context}
    (h : ContextOf env opts pms hs c) (h' : ContextOf env opts pms hs' c') (hl : ¬ Lone pms hs)
    (hl' : ¬ Lone pms hs') {lower lower' upper upper' : List CoalesceEntry} {x : CoalesceEntry}
    (he : c.entries = lower ++ x :: upper) (he' : c'.entries = lower' ++ x :: upper')
    (hlo : lower ≠ []) (hw : OtherWords lower upper') :
    ∃ hs, ¬ Lone pms hs ∧ ContextOf env opts pms hs (contextAbove (lower ++ x :: upper')) := by
  have hent := h.entries
  have hent' := h'.entries
  rw [he] at hent
  rw [he'] at hent'
  obtain ⟨a, p, b, rfl, -, hp, hb⟩ := exchange_split hent
  obtain ⟨a', p', b', rfl, ha', hp', -⟩ := exchange_split hent'
  have hmem : ∀ z ∈ a ++ p :: b, z.q ∈ pms ∧ z.kg ∈ z.q.matchKeys := h.keys
  have hmem' : ∀ z ∈ a' ++ p' :: b', z.q ∈ pms ∧ z.kg ∈ z.q.matchKeys := h'.keys
  have hq : p.q = p'.q := by
    obtain ⟨g1, g2⟩ := hmem p (by simp)
    obtain ⟨g1', g2'⟩ := hmem' p' (by simp)
    exact delivered_by_id hd g1 g1' g2 g2' (hp.2.symm.trans hp'.2)
  have htile : p.tile = p'.tile := by
    unfold Hit.tile tileOf
    rw [hq, ← hp.1.2.1, ← hp.1.2.2.1, ← hp'.1.2.1, ← hp'.1.2.2.1]
  have hbne : b ≠ [] := by
    rintro rfl
    cases hb
    exact hlo rfl
  have hlone : ¬ Lone pms (a' ++ p :: b) := by
    refine not_lone_of_two ?_
    have := List.length_pos_iff.2 hbne
    simp
    omega
  have hes : List.Forall₂ (fun h e => MadeFrom h.q h.grid e ∧ e.phrasematchId = h.kg.id)
      (a' ++ p :: b).reverse (lower ++ x :: upper') := by
    rw [List.reverse_append, List.reverse_cons, List.append_assoc, List.singleton_append]
    exact List.rel_append hb (.cons hp ha')
  have hin : ∀ z ∈ a' ++ p :: b, z ∈ a' ++ p' :: b' ∨ z ∈ a ++ p :: b := by
    intro z hz
    rcases List.mem_append.1 hz with hz | hz
    · exact Or.inl (List.mem_append_left _ hz)
    · exact Or.inr (List.mem_append_right _ hz)
  have hrel : (lower ++ x :: upper').reverse.map (·.entry.relev) = (a' ++ p :: b).map Hit.relev :=
    above_map (fun x e hp => hp.1.2.2.2.2.2.1.symm) hes
  have hmask : (lower ++ x :: upper').reverse.map (·.mask) = (a' ++ p :: b).map (·.q.mask) :=
    above_map (fun x e hp => hp.1.2.2.2.2.2.2.2.2.2.2.2.symm) hes
  have hcost : LosesPoints pms (a' ++ p :: b) ↔ Costs (lower ++ x :: upper') = true := by
    refine above_costs ?_ hes
    intro h1
    have := List.length_pos_iff.2 hbne
    simp at h1
    omega
  refine ⟨a' ++ p :: b, hlone, by simp, ?_, ?_, hes, ?_, ?_, ?_, ?_, ?_⟩
  · have s1 := h.stack
    have s2 := h'.stack
    rw [List.map_append, List.map_cons] at s1 s2 ⊢
    rw [← hq] at s2
    refine exchange_stack s1 s2 ?_
    intro u hu l hl
    obtain ⟨u, hu', rfl⟩ := List.mem_map.1 hu
    obtain ⟨l, hl', rfl⟩ := List.mem_map.1 hl
    have hf : ∀ {t : List Hit} {es : List CoalesceEntry},
        List.Forall₂ (fun h e => MadeFrom h.q h.grid e ∧ e.phrasematchId = h.kg.id) t.reverse es →
        ∀ z ∈ t, ∃ e ∈ es, e.mask = z.q.mask := by
      intro t es ht z hz
      have hz := List.mem_reverse.2 hz
      generalize t.reverse = r at ht hz
      induction ht with
      | nil => simp at hz
      | cons h1 _ ih =>
        rcases List.mem_cons.1 hz with rfl | hz
        · exact ⟨_, List.mem_cons_self, h1.1.2.2.2.2.2.2.2.2.2.2.2⟩
        · obtain ⟨e, e1, e2⟩ := ih hz
          exact ⟨e, List.mem_cons_of_mem _ e1, e2⟩
    obtain ⟨eu, e1, e2⟩ := hf ha' u hu'
    obtain ⟨el, e3, e4⟩ := hf hb l hl'
    rw [← e2, ← e4]
    exact hw el e3 eu e1
  · intro z hz limit _ h4
    rcases hin z hz with hz | hz
    · exact h'.answers z hz limit (fun e => absurd e hl') fun _ => h4 hlone
    · exact h.answers z hz limit (fun e => absurd e hl) fun _ => h4 hlone
  · refine (List.isChain_map Hit.tile).1 ?_
    have t1 := (List.isChain_map (R := TileContains) Hit.tile).2 h.tiles
    have t2 := (List.isChain_map (R := TileContains) Hit.tile).2 h'.tiles
    rw [List.map_append, List.map_cons] at t1 t2 ⊢
    rw [← htile] at t2
    exact List.isChain_split.2 ⟨(List.isChain_split.1 t2).1, (List.isChain_split.1 t1).2⟩
  · change unionMask ((lower ++ x :: upper').reverse.map (·.mask)) = _
    rw [hmask]
  · intro hn
    rw [hcost] at hn
    change (if Costs (lower ++ x :: upper') = true then _ else _) = _
    rw [if_neg hn, hrel]
  · intro hn
    rw [hcost] at hn
    change (if Costs (lower ++ x :: upper') = true then _ else _) = _
    rw [if_pos hn, hrel]
  · intro _ z hz
    rcases hin z hz with hz | hz
    · exact h'.first hl' z hz
    · exact h.first hl z hz

end

/-- **C109**: if two contexts have an entry in common, what is below it in the one is also returned with
what is above it in the other, unless words are covered twice. -/
theorem C109_exchange {env : TreeEnv} {qs : List Subquery} {opts : MatchOpts} (hd : Delivered qs)
    (hfew : FewGroupStacks 2000 qs) (hz : env.chk = true ∨ ZoomsAscend qs)
    (hroom : RoomForGroups qs) (hbox : BoxesCover env.toEnv opts qs) {out : List Context}
    (hout : stackAndCoalesce env qs opts = some out) (hlen : Short out) :
    ∀ c ∈ out, ∀ c' ∈ out, ∀ x lower upper lower' upper', c.entries = lower ++ x :: upper →
      c'.entries = lower' ++ x :: upper' → lower ≠ [] → upper' ≠ [] → OtherWords lower upper' →
      contextAbove (lower ++ x :: upper') ∈ out := by
  intro c hc c' hc' x lower upper lower' upper' he he' hl hu hw
  have h2 : 2 ≤ c.entries.length := by
    rw [he, List.length_append, List.length_cons]
    have := List.length_pos_iff.2 hl
    omega
  have h2' : 2 ≤ c'.entries.length := by
    rw [he', List.length_append, List.length_cons]
    have := List.length_pos_iff.2 hu
    omega
  obtain ⟨hs, n2, -, hcx⟩ := several_returned (C91_sound hd hfew hz hout c hc) h2
  obtain ⟨hs', n2', -, hcx'⟩ := several_returned (C91_sound hd hfew hz hout c' hc') h2'
  exact C81_complete hd hfew hz hroom hbox hout hlen _ (Or.inl (exchange_contextOf hd hcx hcx'
    (not_lone_of_two n2) (not_lone_of_two n2') he he' hl hw))

/-! ## An example -/

/-- A region, a place at the same tile and a street in it. -/
def threeMatches : List Subquery :=
  [⟨growthStore smallRegion 6 0, 0, [], lit 0.25, 1, [⟨⟨.exact 1, 1⟩, false, 0, 5⟩]⟩,
    ⟨growthStore smallRegion 6 1, 1, [], lit 0.25, 2, [⟨⟨.exact 1, 1⟩, false, 1, 5⟩]⟩,
    ⟨growthStore smallStreet 8 2, 2, [], lit 0.5, 4, [⟨⟨.exact 2, 1⟩, false, 2, 5⟩]⟩]

/-- The street in the place, the place in the region, and with it the street in the place in the
region. -/
example : ∃ out, stackAndCoalesce (listTreeEnv false) threeMatches plainOpts = some out ∧
    (∃ c ∈ out, ∃ c' ∈ out, ∃ x street region, c.entries = [street] ++ x :: [] ∧
      c'.entries = [] ++ x :: [region] ∧ OtherWords [street] [region]) ∧
    ∀ c ∈ out, ∀ c' ∈ out, ∀ x lower upper lower' upper', c.entries = lower ++ x :: upper →
      c'.entries = lower' ++ x :: upper' → lower ≠ [] → upper' ≠ [] → OtherWords lower upper' →
      contextAbove (lower ++ x :: upper') ∈ out := by
  have h1 : (stackAndCoalesce (listTreeEnv false) threeMatches plainOpts).map
      (fun out => decide (out.length < 40 ∧ ∃ c ∈ out, ∃ c' ∈ out, c.entries.length = 2 ∧
        c'.entries.length = 2 ∧ c.entries.getLast? = c'.entries.head? ∧
        ∀ e ∈ c.entries.head?, ∀ e' ∈ c'.entries.getLast?, e'.mask &&& e.mask = 0)) = some true := by
    decide +kernel
  obtain ⟨out, h1, h3⟩ := Option.map_eq_some_iff.1 h1
  obtain ⟨h3, c, hc, c', hc', l1, l2, e, hm⟩ := of_decide_eq_true h3
  have hd : Delivered threeMatches := ⟨by decide +kernel, by decide +kernel, by decide +kernel⟩
  have hroom : RoomForGroups threeMatches :=
    room_of_small (by decide +kernel) (by decide +kernel) (by
      intro q hq kg hk
      simp only [threeMatches, List.mem_cons, List.not_mem_nil, or_false] at hq
      rcases hq with rfl | rfl | rfl <;> exact ⟨_, by rw [List.mem_singleton.1 hk]⟩)
  have hz : ZoomsAscend threeMatches := by
    unfold ZoomsAscend
    decide +kernel
  have hfew : FewGroupStacks 2000 threeMatches := few_of_small (by decide +kernel)
  have hbox : BoxesCover (listTreeEnv false).toEnv plainOpts threeMatches :=
    boxesCover_of (by decide +kernel)
  refine ⟨out, h1, ⟨c, hc, c', hc', ?_⟩,
    C109_exchange hd hfew (.inr hz) hroom hbox h1 (short_of_few h3)⟩
  obtain ⟨a, b, e1⟩ := List.length_eq_two.1 l1
  obtain ⟨a', b', e2⟩ := List.length_eq_two.1 l2
  rw [e1, e2] at e hm
  obtain rfl : b = a' := by simpa using e
  exact ⟨b, a, b', e1, e2, fun x hx y hy => by
    rw [List.mem_singleton.1 hx, List.mem_singleton.1 hy]
    exact hm a rfl b' rfl⟩

end Carmen
