import Verif.Lemmas.EndToEnd
import Verif.Props.Collapse

/-!
# Collapsed phrase matches stack like the ones they come from
-/

namespace Carmen
open Spec

/-! ## What collapsing leaves alone -/

/-- A phrase match without its match keys. -/
def bare (q : Subquery) : Subquery := { q with matchKeys := [] }

/-- A hit on a phrase match without its match keys. -/
def Spec.Hit.bare (h : Hit) : Hit := { h with q := Carmen.bare h.q }

theorem isStack_bare {pms qs : List Subquery} :
    IsStack pms qs ↔ (∀ q ∈ qs, q ∈ pms) ∧ IsStack (qs.map bare) (qs.map bare) := by
  constructor
  · intro h
    refine ⟨h.mem, fun _ h => h, ?_, ?_, ?_, ?_⟩
    · rw [List.pairwise_map]; exact h.types
    · rw [List.pairwise_map]; exact h.masks
    · rw [List.isChain_map]; exact h.neighbours
    · intro q hq
      rw [List.head?_map, Option.mem_def, Option.map_eq_some_iff] at hq
      obtain ⟨a, ha, rfl⟩ := hq
      exact h.root a ha
  · rintro ⟨hm, h⟩
    refine ⟨hm, ?_, ?_, ?_, ?_⟩
    · have := h.types; rw [List.pairwise_map] at this; exact this
    · have := h.masks; rw [List.pairwise_map] at this; exact this
    · have := h.neighbours; rw [List.isChain_map] at this; exact this
    · intro q hq
      refine h.root (bare q) ?_
      rw [List.head?_map, Option.mem_def, Option.map_eq_some_iff]
      exact ⟨q, hq, rfl⟩

/-- Every phrase match of the one list has a counterpart in the other one. -/
def Covers (pms pms' : List Subquery) : Prop := ∀ a ∈ pms, ∃ b ∈ pms', bare b = bare a

theorem isStack_move {pms pms' qs qs' : List Subquery} (hb : qs'.map bare = qs.map bare)
    (hm : ∀ q ∈ qs', q ∈ pms') (h : IsStack pms qs) : IsStack pms' qs' := by
  rw [isStack_bare] at h ⊢
  exact ⟨hm, by rw [hb]; exact h.2⟩

theorem extendable_move {pms pms' qs qs' : List Subquery} (hc : Covers pms pms')
    (hb : qs'.map bare = qs.map bare) (hm : ∀ q ∈ qs', q ∈ pms') (h : Extendable pms qs) :
    Extendable pms' qs' := by
  obtain ⟨q, hq⟩ := h
  obtain ⟨b, hb1, hb2⟩ := hc q (hq.mem q (by simp))
  refine ⟨b, isStack_move ?_ ?_ hq⟩
  · rw [List.map_append, List.map_append, hb]
    simp [hb2]
  · intro x hx
    rcases List.mem_append.1 hx with hx | hx
    · exact hm x hx
    · rw [List.mem_singleton.1 hx]; exact hb1

section
variable {pms pms' : List Subquery} (h1 : Covers pms pms') (h2 : Covers pms' pms)
  {hs hs' : List Hit} (hb : hs'.map Hit.bare = hs.map Hit.bare) (hm : ∀ h ∈ hs, h.q ∈ pms)
  (hm' : ∀ h ∈ hs', h.q ∈ pms')
include h1 h2 hb hm hm'

omit h1 h2 hm hm' in
theorem bare_qs : (hs'.map Hit.q).map bare = (hs.map Hit.q).map bare := by
  have := congrArg (List.map Hit.q) hb
  rw [List.map_map, List.map_map] at this ⊢
  exact this

omit hb hm hm' in
theorem extendable_one {h h' : Hit} (e : h'.bare = h.bare) (hh : h.q ∈ pms) (hh' : h'.q ∈ pms') :
    Extendable pms [h.q] ↔ Extendable pms' [h'.q] := by
  have e' : bare h'.q = bare h.q := congrArg Hit.q e
  constructor
  · exact extendable_move h1 (by simp [e']) (by simpa using hh')
  · exact extendable_move h2 (by simp [e']) (by simpa using hh)

theorem lone_move : Lone pms hs ↔ Lone pms' hs' := by
  constructor
  · rintro ⟨h, rfl, hn⟩
    obtain ⟨h', rfl, e⟩ := map_eq_one hb
    exact ⟨h', rfl, fun hx => hn ((extendable_one h1 h2 e (hm h (by simp))
      (hm' h' (by simp))).2 hx)⟩
  · rintro ⟨h', rfl, hn⟩
    obtain ⟨h, rfl, e⟩ := map_eq_one hb.symm
    exact ⟨h, rfl, fun hx => hn ((extendable_one h1 h2 e.symm (hm h (by simp))
      (hm' h' (by simp))).1 hx)⟩

theorem loses_move : LosesPoints pms hs ↔ LosesPoints pms' hs' := by
  constructor
  · rintro (⟨h, rfl, hn⟩ | ⟨a, u, l, rfl, hlt⟩)
    · obtain ⟨h', rfl, e⟩ := map_eq_one hb
      exact Or.inl ⟨h', rfl, (extendable_one h1 h2 e (hm h (by simp))
        (hm' h' (by simp))).1 hn⟩
    · rw [List.map_append] at hb
      obtain ⟨a', b', rfl, e1, e2⟩ := List.map_eq_append_iff.1 hb
      obtain ⟨u', l', rfl, e3, e4⟩ := map_eq_pair e2
      refine Or.inr ⟨a', u', l', rfl, ?_⟩
      have f3 : u'.q.mask = u.q.mask := congrArg (fun h => h.q.mask) e3
      have f4 : l'.q.mask = l.q.mask := congrArg (fun h => h.q.mask) e4
      rw [f3, f4]
      exact hlt
  · rintro (⟨h', rfl, hn⟩ | ⟨a, u, l, rfl, hlt⟩)
    · obtain ⟨h, rfl, e⟩ := map_eq_one hb.symm
      exact Or.inl ⟨h, rfl, (extendable_one h1 h2 e.symm (hm h (by simp))
        (hm' h' (by simp))).2 hn⟩
    · rw [List.map_append] at hb
      obtain ⟨a', b', rfl, e1, e2⟩ := List.map_eq_append_iff.1 hb.symm
      obtain ⟨u', l', rfl, e3, e4⟩ := map_eq_pair e2
      refine Or.inr ⟨a', u', l', rfl, ?_⟩
      have f3 : u'.q.mask = u.q.mask := congrArg (fun h => h.q.mask) e3
      have f4 : l'.q.mask = l.q.mask := congrArg (fun h => h.q.mask) e4
      rw [f3, f4]
      exact hlt

theorem contextOf_move {env : Env} {opts : MatchOpts} {c : Context}
    (hk' : ∀ h ∈ hs', h.kg ∈ h.q.matchKeys) (hc : ContextOf env opts pms hs c) :
    ContextOf env opts pms' hs' c := by
  have hl := lone_move h1 h2 hb hm hm'
  have hlp := loses_move h1 h2 hb hm hm'
  have hrel : hs'.map Hit.relev = hs.map Hit.relev := by
    have := congrArg (List.map Hit.relev) hb
    rw [List.map_map, List.map_map] at this
    exact this
  refine ⟨?_, isStack_move (bare_qs hb) ?_ hc.stack, ?_, ?_, ?_, ?_, ?_, ?_, fun hn h' hh' => by
    rw [← hl] at hn
    have : h'.bare ∈ hs.map Hit.bare := by
      rw [← hb]
      exact List.mem_map_of_mem hh'
    obtain ⟨h, hh, e⟩ := List.mem_map.1 this
    obtain ⟨_, o, before, after, g1, g2, g3⟩ := hc.first hn h hh
    have k1 : h'.kg = h.kg := (congrArg Hit.kg e).symm
    have k2 : h'.grid = h.grid := (congrArg Hit.grid e).symm
    have k3 : h'.q.store = h.q.store := (congrArg (fun h => h.q.store) e).symm
    refine ⟨hk' h' hh', o, before, after, ?_, ?_, ?_⟩
    · unfold lookupOpts at g1 ⊢
      rw [k1, k3]
      exact g1
    · rw [k1, k2, k3]
      exact g2
    · rw [k2]
      exact g3⟩
  · rintro rfl
    rw [List.map_nil, eq_comm, List.map_eq_nil_iff] at hb
    exact hc.ne hb
  · intro q hq
    obtain ⟨h, hh, rfl⟩ := List.mem_map.1 hq
    exact hm' h hh
  · intro h' hh' limit e1 e2
    rw [← hl] at e1 e2
    have : h'.bare ∈ hs.map Hit.bare := by
      rw [← hb]
      exact List.mem_map_of_mem hh'
    obtain ⟨h, hh, e⟩ := List.mem_map.1 this
    obtain ⟨_, o, grids, g1, g2, g3⟩ := hc.answers h hh limit e1 e2
    have k1 : h'.kg = h.kg := (congrArg Hit.kg e).symm
    have k2 : h'.grid = h.grid := (congrArg Hit.grid e).symm
    have k3 : h'.q.store = h.q.store := (congrArg (fun h => h.q.store) e).symm
    refine ⟨hk' h' hh', o, grids, ?_, ?_, ?_⟩
    · unfold lookupOpts at g1 ⊢
      rw [k1, k3]
      exact g1
    · rw [k1, k3]
      exact g2
    · rw [k2]
      exact g3
  · have e : List.Forall₂ (fun h e => MadeFrom h.q h.grid e ∧ e.phrasematchId = h.kg.id)
        (hs.reverse.map Hit.bare) c.entries := by
      rw [List.forall₂_map_left_iff]
      exact hc.entries
    rw [List.map_reverse, ← hb, ← List.map_reverse, List.forall₂_map_left_iff] at e
    exact e
  · have e : (hs.map Hit.bare).IsChain fun a b => TileContains a.tile b.tile := by
      rw [List.isChain_map]
      exact hc.tiles
    rw [← hb, List.isChain_map] at e
    exact e
  · rw [hc.mask]
    have := congrArg (List.map fun h : Hit => h.q.mask) hb
    rw [List.map_map, List.map_map] at this
    exact congrArg unionMask this.symm
  · intro hn
    rw [hrel]
    exact hc.plain fun hx => hn (hlp.1 hx)
  · intro hn
    rw [hrel]
    exact hc.penalty (hlp.2 hn)

end

/-! ## What collapsing does -/

/-- Collapsed phrase matches: `rep` tells the first member of each group, `orig` the member with the
match key, and `grp` the group. -/
structure Regroups (qs out : List Subquery) (rep : Subquery → Subquery)
    (orig : Subquery → KeyWithId → Subquery) (grp : Subquery → Subquery) : Prop where
  rep_mem : ∀ o ∈ out, rep o ∈ qs ∧ bare (rep o) = bare o
  orig_mem : ∀ o ∈ out, ∀ kg ∈ o.matchKeys, orig o kg ∈ qs ∧ bare (orig o kg) = bare o ∧
    (orig o kg).matchKeys = [kg]
  grp_mem : ∀ q ∈ qs, grp q ∈ out ∧ bare (grp q) = bare q ∧ ∀ kg ∈ q.matchKeys, kg ∈ (grp q).matchKeys
  nodup : out.Nodup
  inj : ∀ a ∈ out, ∀ b ∈ out, a.groupKey = b.groupKey → a = b
  keys : ∀ o ∈ out, o.matchKeys.Nodup

theorem groupKey_of_bare {a b : Subquery} (h : bare a = bare b) : a.groupKey = b.groupKey := by
  have : (bare a).groupKey = (bare b).groupKey := by rw [h]
  exact this

theorem store_of_bare {a b : Subquery} (h : bare a = bare b) : a.store = b.store := by
  have : (bare a).store = (bare b).store := by rw [h]
  exact this

theorem mask_of_bare {a b : Subquery} (h : bare a = bare b) : a.mask = b.mask := by
  have : (bare a).mask = (bare b).mask := by rw [h]
  exact this

theorem delivered_inj {qs : List Subquery} (hd : Delivered qs) {a b : Subquery} (ha : a ∈ qs)
    (hb : b ∈ qs) {k l : KeyWithId} (hk : k ∈ a.matchKeys) (hl : l ∈ b.matchKeys)
    (h : k.id = l.id) : a = b ∧ k = l := by
  have hnd := List.nodup_flatMap.1 hd.ids
  have hab : a = b := by
    by_contra hne
    have : Std.Symm (Function.onFun List.Disjoint fun q : Subquery =>
        q.matchKeys.map KeyWithId.id) := ⟨fun _ _ h => List.disjoint_symm h⟩
    have := hnd.2.forall ha hb hne
    exact this (List.mem_map_of_mem hk) (h ▸ List.mem_map_of_mem hl)
  subst hab
  exact ⟨rfl, List.inj_on_of_nodup_map (hnd.1 a ha) hk hl h⟩

theorem collapse_regroups {qs out : List Subquery} (hd : Delivered qs)
    (h : collapse qs = some out) : ∃ rep orig grp, Regroups qs out rep orig grp := by
  have hc := C47_conserves_partial h hd.one
  have : Nonempty Subquery := ⟨regionTreeMatch⟩
  have hmem : ∀ {k : F64 × ℕ × ℕ} {q : Subquery}, q ∈ groupOf k qs → q ∈ qs ∧ q.groupKey = k := by
    intro k q hq
    have := List.mem_filter.1 hq
    exact ⟨this.1, of_decide_eq_true this.2⟩
  have hbare : ∀ {a b : Subquery}, a ∈ qs → b ∈ qs → a.groupKey = b.groupKey → bare a = bare b := by
    intro a b ha hb hab
    have hab : (a.weight, a.idx, a.mask) = (b.weight, b.idx, b.mask) := hab
    simp only [Prod.mk.injEq] at hab
    obtain ⟨h1, h2, h3⟩ := hab
    obtain ⟨h4, h5⟩ := hd.index a ha b hb h2
    unfold bare
    rw [h1, h2, h3, h4, h5]
  have hmade : ∀ o ∈ out, ∃ q later, groupOf o.groupKey qs = q :: later ∧
      o = { q with matchKeys := allKeys q later } ∧ q ∈ qs ∧ bare q = bare o := by
    intro o ho
    obtain ⟨q, later, h1, h2⟩ := hc.made o ho
    refine ⟨q, later, h1, h2, (hmem (h1 ▸ List.mem_cons_self)).1, ?_⟩
    rw [h2]
    rfl
  have hrep : ∀ o ∈ out, ∃ q, q ∈ qs ∧ bare q = bare o := by
    intro o ho
    obtain ⟨q, _, _, _, h1, h2⟩ := hmade o ho
    exact ⟨q, h1, h2⟩
  have horig : ∀ o ∈ out, ∀ kg ∈ o.matchKeys, ∃ q, q ∈ qs ∧ bare q = bare o ∧
      q.matchKeys = [kg] := by
    intro o ho kg hkg
    obtain ⟨q, later, h1, h2, h3, h4⟩ := hmade o ho
    have hkg : kg ∈ allKeys q later := by
      have e : o.matchKeys = allKeys q later := by rw [h2]
      rw [← e]
      exact hkg
    obtain ⟨p, hp, hk⟩ := List.mem_flatMap.1 hkg
    rw [← h1] at hp
    obtain ⟨hp1, hp2⟩ := hmem hp
    refine ⟨p, hp1, ?_, ?_⟩
    · rw [← h4]
      exact hbare hp1 h3 (hp2.trans (groupKey_of_bare h4).symm)
    · obtain ⟨k, hk'⟩ := List.length_eq_one_iff.1 (hd.one p hp1)
      rw [hk'] at hk ⊢
      rw [List.mem_singleton.1 hk]
  have hgrp : ∀ q ∈ qs, ∃ o, o ∈ out ∧ bare o = bare q ∧ ∀ kg ∈ q.matchKeys, kg ∈ o.matchKeys := by
    intro q hq
    have : q.groupKey ∈ groupKeys out := (hc.same _).2 (List.mem_map_of_mem hq)
    obtain ⟨o, ho, hoq⟩ := List.mem_map.1 this
    have hoq : o.groupKey = q.groupKey := hoq
    obtain ⟨p, later, h1, h2, h3, h4⟩ := hmade o ho
    refine ⟨o, ho, ?_, ?_⟩
    · rw [← h4]
      exact hbare h3 hq ((groupKey_of_bare h4).trans hoq)
    · intro kg hkg
      have hq' : q ∈ groupOf o.groupKey qs :=
        List.mem_filter.2 ⟨hq, decide_eq_true hoq.symm⟩
      have e : o.matchKeys = allKeys p later := by rw [h2]
      rw [e]
      rw [h1] at hq'
      exact List.mem_flatMap.2 ⟨q, hq', hkg⟩
  have hnd : (groupKeys out).Nodup := hc.order.imp fun h he => by
    rw [he] at h
    exact lt_irrefl _ h
  choose! rep hrep using hrep
  choose! orig horig using horig
  choose! grp hgrp using hgrp
  refine ⟨rep, orig, grp, hrep, horig, hgrp, List.Nodup.of_map _ hnd, ?_, ?_⟩
  · intro a ha b hb hab
    exact List.inj_on_of_nodup_map hnd ha hb hab
  · intro o ho
    obtain ⟨q, later, h1, h2, _, _⟩ := hmade o ho
    have e : o.matchKeys = allKeys q later := by rw [h2]
    rw [e]
    unfold allKeys
    rw [← h1]
    refine List.Nodup.of_map KeyWithId.id ?_
    rw [List.map_flatMap]
    refine hd.ids.sublist ?_
    exact List.Sublist.flatMap List.filter_sublist _

section
variable {qs out : List Subquery} {rep : Subquery → Subquery}
  {orig : Subquery → KeyWithId → Subquery} {grp : Subquery → Subquery}
  (hr : Regroups qs out rep orig grp)
include hr

theorem Regroups.covers : Covers out qs := fun o ho =>
  ⟨rep o, (hr.rep_mem o ho).1, (hr.rep_mem o ho).2⟩

theorem Regroups.covers' : Covers qs out := fun q hq =>
  ⟨grp q, (hr.grp_mem q hq).1, (hr.grp_mem q hq).2.1⟩

theorem Regroups.idsUnique (hd : Delivered qs) : IdsUnique out := by
  intro a ha b hb k hk l hl h
  obtain ⟨h1, h2, h3⟩ := hr.orig_mem a ha k hk
  obtain ⟨h4, h5, h6⟩ := hr.orig_mem b hb l hl
  obtain ⟨e1, e2⟩ := delivered_inj hd h1 h4 (h3 ▸ List.mem_singleton_self k)
    (h6 ▸ List.mem_singleton_self l) h
  refine ⟨?_, by rw [e2], by rw [e2]⟩
  have : bare a = bare b := by rw [← h2, ← h5, e1]
  exact store_of_bare this

theorem Regroups.zooms (hz : ZoomsAscend qs) : ZoomsAscend out := by
  intro a ha b hb h
  obtain ⟨h1, h2⟩ := hr.rep_mem a ha
  obtain ⟨h3, h4⟩ := hr.rep_mem b hb
  have e1 : (rep a).store = a.store := store_of_bare h2
  have e2 : (rep b).store = b.store := store_of_bare h4
  have := hz _ h1 _ h3
  rw [e1, e2] at this
  exact this h

theorem Regroups.lists_inj {a b : List Subquery} (ha : ∀ q ∈ a, q ∈ out) (hb : ∀ q ∈ b, q ∈ out)
    (h : groupKeys a = groupKeys b) : a = b := by
  induction a generalizing b with
  | nil =>
    cases b with
    | nil => rfl
    | cons _ _ => cases h
  | cons x a ih =>
    cases b with
    | nil => cases h
    | cons y b =>
      have h : x.groupKey :: groupKeys a = y.groupKey :: groupKeys b := h
      injection h with h1 h2
      rw [hr.inj x (ha x (by simp)) y (hb y (by simp)) h1,
        ih (fun q hq => ha q (List.mem_cons_of_mem _ hq))
          (fun q hq => hb q (List.mem_cons_of_mem _ hq)) h2]

theorem Regroups.map_rep {a : List Subquery} (ha : ∀ q ∈ a, q ∈ out) :
    (a.map rep).map bare = a.map bare ∧ groupKeys (a.map rep) = groupKeys a ∧
      ∀ q ∈ a.map rep, q ∈ qs := by
  have e : (a.map rep).map bare = a.map bare := by
    rw [List.map_map]
    exact List.map_congr_left fun q hq => (hr.rep_mem q (ha q hq)).2
  refine ⟨e, ?_, ?_⟩
  · unfold groupKeys
    rw [List.map_map]
    exact List.map_congr_left fun q hq => groupKey_of_bare (hr.rep_mem q (ha q hq)).2
  · intro q hq
    obtain ⟨o, ho, rfl⟩ := List.mem_map.1 hq
    exact (hr.rep_mem o (ha o ho)).1

theorem Regroups.weightsPositive (hw : WeightsPositive qs) : WeightsPositive out := by
  intro q hq
  obtain ⟨h1, h2⟩ := hr.rep_mem q hq
  have h3 := hw _ h1
  have : (bare (rep q)).weight = (bare q).weight := by rw [h2]
  have : (rep q).weight = q.weight := this
  rwa [this] at h3

theorem Regroups.weightsOk (hw : WeightsOk qs) : WeightsOk out := by
  intro q hq
  obtain ⟨h1, h2⟩ := hr.rep_mem q hq
  have h3 := hw _ h1
  have : (bare (rep q)).weight = (bare q).weight := by rw [h2]
  have : (rep q).weight = q.weight := this
  rwa [this] at h3

theorem Regroups.fewStacks {n : ℕ} (hf : FewGroupStacks n qs) : FewStacks n out := by
  intro l hl hall
  have := hf (l.map (List.map rep)) ?_ ?_
  · rwa [List.length_map] at this
  · rw [List.map_map]
    refine hl.map_on ?_
    intro a ha b hb hab
    have ha' := (hall a ha).2.1.mem
    have hb' := (hall b hb).2.1.mem
    refine hr.lists_inj ha' hb' ?_
    have hab : groupKeys (a.map rep) = groupKeys (b.map rep) := hab
    rwa [(hr.map_rep ha').2.1, (hr.map_rep hb').2.1] at hab
  · intro s hs
    obtain ⟨a, ha, rfl⟩ := List.mem_map.1 hs
    obtain ⟨h1, h2, h3⟩ := hall a ha
    obtain ⟨e1, e2, e3⟩ := hr.map_rep h2.mem
    refine ⟨by simpa using h1, isStack_move e1 e3 h2, ?_⟩
    intro hx
    exact h3 (extendable_move hr.covers' e1.symm h2.mem hx)

/-- The stacks of the phrase matches that stand for a stack of groups and a match key of the last
one. -/
def origStacks (rep : Subquery → Subquery) (orig : Subquery → KeyWithId → Subquery)
    (st : List Subquery) : List (List Subquery) :=
  st.getLast?.toList.flatMap fun o =>
    o.matchKeys.map fun kg => st.dropLast.map rep ++ [orig o kg]

omit hr in
theorem mem_origStacks {st s : List Subquery} : s ∈ origStacks rep orig st ↔
    ∃ above o kg, st = above ++ [o] ∧ kg ∈ o.matchKeys ∧ s = above.map rep ++ [orig o kg] := by
  unfold origStacks
  rw [List.mem_flatMap]
  constructor
  · rintro ⟨o, ho, hs⟩
    obtain ⟨kg, hk, rfl⟩ := List.mem_map.1 hs
    rw [Option.mem_toList] at ho
    refine ⟨st.dropLast, o, kg, ?_, hk, rfl⟩
    exact (List.dropLast_append_getLast? o ho).symm
  · rintro ⟨above, o, kg, rfl, hk, rfl⟩
    refine ⟨o, by simp, ?_⟩
    rw [List.dropLast_concat]
    exact List.mem_map_of_mem (f := fun kg => above.map rep ++ [orig o kg]) hk

omit hr in
theorem forall₂_sublist {α β : Type} {R : α → β → Prop} {a s : List α} {b : List β}
    (h : List.Forall₂ R a b) (hs : s.Sublist a) : ∃ s', s'.Sublist b ∧ List.Forall₂ R s s' := by
  induction hs generalizing b with
  | slnil =>
    cases h
    exact ⟨[], .slnil, .nil⟩
  | cons x _ ih =>
    cases h with
    | cons hx h =>
      obtain ⟨s', h1, h2⟩ := ih h
      exact ⟨s', h1.cons _, h2⟩
  | cons_cons x _ ih =>
    cases h with
    | cons hx h =>
      obtain ⟨s', h1, h2⟩ := ih h
      exact ⟨_, h1.cons_cons _, .cons hx h2⟩

omit hr in
theorem roomToTry_of_forall₂ {a b : List (Subquery × KeyWithId)}
    (h : List.Forall₂ (fun s s' => bare s.1 = bare s'.1 ∧ s.2 = s'.2) a b)
    {x y : Subquery × KeyWithId} (hx : bare x.1 = bare y.1) (hx' : x.2 = y.2)
    (hb : RoomToTryFor b y) : RoomToTryFor a x := by
  have move : ∀ {n : ℕ} {p : Subquery × KeyWithId → Prop},
      (∀ s s' : Subquery × KeyWithId, bare s.1 = bare s'.1 → s.2 = s'.2 → p s → p s') →
      AtMost n p b → AtMost n p a := by
    intro n p hp hb s hs hall
    obtain ⟨s', hs', hsub⟩ := forall₂_sublist h hs
    rw [hsub.length_eq]
    refine hb s' hs' ?_
    clear hs hs' hb
    induction hsub with
    | nil => exact fun _ h => by cases h
    | cons hab _ ih =>
      intro x hx
      rcases List.mem_cons.1 hx with rfl | hx
      · exact hp _ _ hab.1 hab.2 (hall _ (by simp))
      · exact ih (fun y hy => hall y (List.mem_cons_of_mem _ hy)) x hx
  have wide : ∀ s s' : Subquery × KeyWithId, s.2 = s'.2 → WideScan s → WideScan s' := by
    intro s s' h2 hw
    unfold WideScan at hw ⊢
    rwa [← h2]
  have one : ∀ s s' : Subquery × KeyWithId, bare s.1 = bare s'.1 → CoversOne s → CoversOne s' := by
    intro s s' h1 hw
    unfold CoversOne at hw ⊢
    rwa [← mask_of_bare h1]
  have high : ∀ s s' : Subquery × KeyWithId, bare s.1 = bare s'.1 → s.2 = s'.2 → HighScan s →
      HighScan s' := by
    intro s s' h1 h2 hw
    unfold HighScan at hw ⊢
    rwa [← store_of_bare h1, ← h2]
  refine ⟨fun w o p => move ?_ (hb.letters (wide _ _ hx' w) (one _ _ hx o) (hx' ▸ p)),
    fun w o => move ?_ (hb.words (wide _ _ hx' w) (one _ _ hx o)),
    fun w o g => move ?_ (hb.wordsHigh (wide _ _ hx' w) (one _ _ hx o) (high _ _ hx hx' g)),
    fun w g => move ?_ (hb.ranges (wide _ _ hx' w) (high _ _ hx hx' g)),
    fun g => move ?_ (hb.highs (high _ _ hx hx' g))⟩
  · rintro s s' h1 h2 ⟨p1, p2, p3⟩
    exact ⟨wide _ _ h2 p1, one _ _ h1 p2, h2 ▸ p3⟩
  · rintro s s' h1 h2 ⟨p1, p2⟩
    exact ⟨wide _ _ h2 p1, one _ _ h1 p2⟩
  · rintro s s' h1 h2 ⟨p1, p2, p3⟩
    exact ⟨wide _ _ h2 p1, one _ _ h1 p2, high _ _ h1 h2 p3⟩
  · rintro s s' h1 h2 ⟨p1, p2⟩
    exact ⟨wide _ _ h2 p1, high _ _ h1 h2 p2⟩
  · exact high

theorem Regroups.room {x y : Subquery × KeyWithId} (hx : bare x.1 = bare y.1) (hx' : x.2 = y.2)
    (hf : RoomInGroups qs y) : RoomInStacks out x := by
  intro l hl hall
  refine roomToTry_of_forall₂ ?_ hx hx' (hf (l.flatMap (origStacks rep orig)) ?_ ?_)
  · unfold lastScans
    rw [List.flatMap_assoc]
    have hmem : ∀ st ∈ l, ∀ q ∈ st, q ∈ out := fun st hst => (hall st hst).2.mem
    clear hl hall
    induction l with
    | nil => exact .nil
    | cons st l ih =>
      rw [List.flatMap_cons, List.flatMap_cons]
      refine List.rel_append ?_ (ih fun s hs => hmem s (List.mem_cons_of_mem _ hs))
      have hst := hmem st (by simp)
      unfold origStacks
      cases hg : st.getLast? with
      | none => exact .nil
      | some o =>
        have ho := hst o (List.mem_of_getLast? hg)
        simp only [Option.toList_some, List.flatMap_cons, List.flatMap_nil, List.append_nil]
        rw [List.flatMap_map]
        have hk := hr.orig_mem o ho
        generalize o.matchKeys = ks at hk ⊢
        induction ks with
        | nil => exact .nil
        | cons k ks ih =>
          obtain ⟨h1, h2, h3⟩ := hk k (by simp)
          rw [List.flatMap_cons, List.map_cons]
          simp only [List.getLast?_append, List.getLast?_singleton, Option.some_or,
            Option.toList_some, List.flatMap_cons, List.flatMap_nil, List.append_nil, h3,
            List.map_cons, List.map_nil, List.cons_append, List.nil_append]
          refine .cons ⟨h2.symm, rfl⟩ ?_
          simpa using ih fun kg hkg => hk kg (List.mem_cons_of_mem _ hkg)
  · rw [List.map_flatMap, List.nodup_flatMap]
    have gk : ∀ {above : List Subquery} {o : Subquery} {kg : KeyWithId},
        (∀ q ∈ above ++ [o], q ∈ out) → kg ∈ o.matchKeys →
        groupKeys (above.map rep ++ [orig o kg]) = groupKeys (above ++ [o]) := by
      intro above o kg hm hk
      have e := (hr.map_rep (a := above) fun q hq => hm q (by simp [hq])).2.1
      have e' := groupKey_of_bare (hr.orig_mem o (hm o (by simp)) kg hk).2.1
      unfold groupKeys at e ⊢
      rw [List.map_append, List.map_append, e]
      exact congrArg (fun x => _ ++ [x]) e'
    constructor
    · intro st hst
      have hm := (hall st hst).2.mem
      unfold origStacks
      cases hg : st.getLast? with
      | none => exact .nil
      | some o =>
        have ho := hm o (List.mem_of_getLast? hg)
        simp only [Option.toList_some, List.flatMap_cons, List.flatMap_nil, List.append_nil]
        rw [List.map_map]
        refine (hr.keys o ho).map_on ?_
        intro k hk k' hk' he
        have he : (groupKeys (st.dropLast.map rep ++ [orig o k]),
            (st.dropLast.map rep ++ [orig o k]).getLast?) =
          (groupKeys (st.dropLast.map rep ++ [orig o k']),
            (st.dropLast.map rep ++ [orig o k']).getLast?) := he
        rw [List.getLast?_concat, List.getLast?_concat, Prod.mk.injEq] at he
        have := congrArg Subquery.matchKeys (Option.some.inj he.2)
        rw [(hr.orig_mem o ho k hk).2.2, (hr.orig_mem o ho k' hk').2.2] at this
        exact List.singleton_inj.1 this
    · refine hl.imp_of_mem ?_
      intro a b ha hb hne x hx hx'
      obtain ⟨s, hs, rfl⟩ := List.mem_map.1 hx
      obtain ⟨s', hs', he⟩ := List.mem_map.1 hx'
      obtain ⟨above, o, kg, rfl, hk, rfl⟩ := mem_origStacks.1 hs
      obtain ⟨above', o', kg', rfl, hk', rfl⟩ := mem_origStacks.1 hs'
      rw [Prod.mk.injEq] at he
      have he := he.1
      rw [gk (hall _ ha).2.mem hk, gk (hall _ hb).2.mem hk'] at he
      exact hne (hr.lists_inj (hall _ ha).2.mem (hall _ hb).2.mem he.symm)
  · intro s hs
    obtain ⟨st, hst, hs⟩ := List.mem_flatMap.1 hs
    obtain ⟨above, o, kg, rfl, hk, rfl⟩ := mem_origStacks.1 hs
    obtain ⟨h1, h2⟩ := hall _ hst
    have ho : o ∈ out := h2.mem o (by simp)
    have ha : ∀ q ∈ above, q ∈ out := fun q hq => h2.mem q (by simp [hq])
    obtain ⟨o1, o2, o3⟩ := hr.orig_mem o ho kg hk
    refine ⟨by simp, isStack_move ?_ ?_ h2⟩
    · rw [List.map_append, List.map_append, (hr.map_rep ha).1]
      simp [o2]
    · intro q hq
      rcases List.mem_append.1 hq with hq | hq
      · exact (hr.map_rep ha).2.2 q hq
      · rw [List.mem_singleton.1 hq]
        exact o1

/-- The hits on the phrase matches behind the groups. -/
def origHits (orig : Subquery → KeyWithId → Subquery) (hs : List Hit) : List Hit :=
  hs.map fun h => { h with q := orig h.q h.kg }

theorem Regroups.orig_bare {hs : List Hit} (hk : ∀ h ∈ hs, h.q ∈ out ∧ h.kg ∈ h.q.matchKeys) :
    (origHits orig hs).map Hit.bare = hs.map Hit.bare ∧
      (∀ h ∈ origHits orig hs, h.q ∈ qs ∧ h.kg ∈ h.q.matchKeys) := by
  constructor
  · unfold origHits
    rw [List.map_map]
    refine List.map_congr_left fun h hh => ?_
    obtain ⟨h1, h2⟩ := hk h hh
    show ({ h with q := bare (orig h.q h.kg) } : Hit) = { h with q := bare h.q }
    rw [(hr.orig_mem _ h1 _ h2).2.1]
  · intro h hh
    obtain ⟨h0, hh0, rfl⟩ := List.mem_map.1 hh
    obtain ⟨h1, h2⟩ := hk h0 hh0
    obtain ⟨o1, o2, o3⟩ := hr.orig_mem _ h1 _ h2
    refine ⟨o1, ?_⟩
    rw [o3]
    exact List.mem_singleton_self _

end

theorem Spec.ContextOf.keys {env : Env} {opts : MatchOpts} {pms : List Subquery} {hs : List Hit}
    {c : Context} (h : ContextOf env opts pms hs c) : ∀ x ∈ hs, x.q ∈ pms ∧ x.kg ∈ x.q.matchKeys := by
  intro x hx
  refine ⟨h.stack.mem _ (List.mem_map_of_mem hx), ?_⟩
  by_cases hl : Lone pms hs
  · exact (h.answers x hx 80 (fun _ => rfl) fun hn => absurd hl hn).1
  · exact (h.answers x hx 100000 (fun hn => absurd hn hl) fun _ => rfl).1

end Carmen
