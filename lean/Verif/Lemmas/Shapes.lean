import Verif.Spec.SameAnswers
import Verif.Props.Exact

/-!
# Requests of one shape
-/

namespace Carmen
open Spec

/-- `mv` maps the phrase matches of the one request to the ones of the other, `mk` their match keys.
Weights may be others. Nothing is asked of what the indexes hold. -/
structure SameForm (mv : Subquery → Subquery) (mk : Subquery → KeyWithId → KeyWithId)
    (pms pms' : List Subquery) : Prop where
  mask : ∀ q, (mv q).mask = q.mask
  idx : ∀ q, (mv q).idx = q.idx
  nonOverlapping : ∀ q, (mv q).nonOverlapping = q.nonOverlapping
  matchKeys : ∀ q, (mv q).matchKeys = q.matchKeys.map (mk q)
  id : ∀ q kg, (mk q kg).id = kg.id
  typeId : ∀ q ∈ pms, (mv q).store.typeId = q.store.typeId
  zoom : ∀ q ∈ pms, (mv q).store.zoom = q.store.zoom
  mem : ∀ q ∈ pms, mv q ∈ pms'
  onto : ∀ q' ∈ pms', ∃ q ∈ pms, mv q = q'

/-- Match keys count against the same quotas as before. -/
structure SameCost (mv : Subquery → Subquery) (mk : Subquery → KeyWithId → KeyWithId)
    (pms : List Subquery) : Prop where
  nearbyOnly : ∀ q kg, (mk q kg).nearbyOnly = kg.nearbyOnly
  phraseLength : ∀ q kg, (mk q kg).phraseLength = kg.phraseLength
  wide : ∀ q ∈ pms, ∀ kg ∈ q.matchKeys, WideScan (mv q, mk q kg) → WideScan (q, kg)

/-- Moreover, phrase matches of one group stay in one group. -/
structure Shapes (mv : Subquery → Subquery) (mk : Subquery → KeyWithId → KeyWithId)
    (pms pms' : List Subquery) : Prop extends SameForm mv mk pms pms' where
  groups : ∀ a ∈ pms, ∀ b ∈ pms, a.weight = b.weight → a.idx = b.idx → a.mask = b.mask →
    (mv a).weight = (mv b).weight

/-- The hit on the other request. -/
def moveKey (mv : Subquery → Subquery) (mk : Subquery → KeyWithId → KeyWithId) (h : Hit) : Hit :=
  { h with q := mv h.q, kg := mk h.q h.kg }

theorem nodup_map_of {α β γ : Type} {f : α → β} {g : α → γ} {l : List α} (h : (l.map f).Nodup)
    (hg : ∀ a ∈ l, ∀ b ∈ l, g a = g b → f a = f b) : (l.map g).Nodup := by
  rw [List.Nodup, List.pairwise_map] at h ⊢
  exact h.imp_of_mem fun ha hb hn e => hn (hg _ ha _ hb e)

theorem AtMost.map {α β : Type} {n : ℕ} {p : α → Prop} {p' : β → Prop} {f : α → β} {l : List α}
    (h : AtMost n p l) (hp : ∀ a ∈ l, p' (f a) → p a) : AtMost n p' (l.map f) := by
  intro s hs ha
  obtain ⟨t, ht, rfl⟩ := List.sublist_map_iff.1 hs
  rw [List.length_map]
  exact h t ht fun a hat => hp a (ht.subset hat) (ha _ (List.mem_map_of_mem hat))

section
variable {mv : Subquery → Subquery} {mk : Subquery → KeyWithId → KeyWithId}
  {pms pms' : List Subquery} (hmv : SameForm mv mk pms pms')
include hmv

theorem SameForm.isStack {qs : List Subquery} (hq : ∀ q ∈ qs, q ∈ pms) :
    IsStack pms' (qs.map mv) ↔ IsStack pms qs := by
  have ht : ∀ a ∈ qs, (mv a).store.typeId = a.store.typeId := fun a ha =>
    hmv.typeId a (hq a ha)
  constructor
  · intro h
    refine ⟨hq, ?_, ?_, ?_, ?_⟩
    · refine (List.pairwise_map.1 h.types).imp_of_mem fun {a b} ha hb hlt => ?_
      rwa [ht a ha, ht b hb] at hlt
    · refine (List.pairwise_map.1 h.masks).imp fun {a b} e => ?_
      rwa [hmv.mask, hmv.mask] at e
    · refine ((List.isChain_map _).1 h.neighbours).imp fun {a b} e => ?_
      rwa [hmv.idx, hmv.nonOverlapping] at e
    · intro q hq'
      have := h.root (mv q) (by rw [List.head?_map, Option.mem_def.1 hq']; rfl)
      rwa [hmv.nonOverlapping] at this
  · intro h
    refine ⟨?_, ?_, ?_, ?_, ?_⟩
    · intro q hq'
      obtain ⟨a, ha, rfl⟩ := List.mem_map.1 hq'
      exact hmv.mem a (hq a ha)
    · refine List.pairwise_map.2 (h.types.imp_of_mem fun {a b} ha hb hlt => ?_)
      rwa [ht a ha, ht b hb]
    · refine List.pairwise_map.2 (h.masks.imp fun {a b} e => ?_)
      rwa [hmv.mask, hmv.mask]
    · refine (List.isChain_map _).2 (h.neighbours.imp fun {a b} e => ?_)
      rwa [hmv.idx, hmv.nonOverlapping]
    · intro q hq'
      rw [List.head?_map, Option.mem_def, Option.map_eq_some_iff] at hq'
      obtain ⟨a, ha, rfl⟩ := hq'
      rw [hmv.nonOverlapping]
      exact h.root a ha

theorem SameForm.pull {qs' : List Subquery} (hq : ∀ q ∈ qs', q ∈ pms') :
    ∃ qs : List Subquery, qs.map mv = qs' ∧ ∀ q ∈ qs, q ∈ pms := by
  induction qs' with
  | nil => exact ⟨[], rfl, by simp⟩
  | cons q' t ih =>
    obtain ⟨qs, h1, h2⟩ := ih fun q h => hq q (List.mem_cons_of_mem _ h)
    obtain ⟨q, h3, rfl⟩ := hmv.onto q' (hq q' List.mem_cons_self)
    exact ⟨q :: qs, by rw [List.map_cons, h1], List.forall_mem_cons.2 ⟨h3, h2⟩⟩

theorem SameForm.extendable {qs : List Subquery} (hq : ∀ q ∈ qs, q ∈ pms) :
    Extendable pms' (qs.map mv) ↔ Extendable pms qs := by
  constructor
  · rintro ⟨q', h⟩
    obtain ⟨q, h1, rfl⟩ := hmv.onto q' (h.mem q' (by simp))
    refine ⟨q, (hmv.isStack ?_).1 (by rwa [List.map_append])⟩
    intro a ha
    rcases List.mem_append.1 ha with ha | ha
    · exact hq a ha
    · rw [List.mem_singleton.1 ha]; exact h1
  · rintro ⟨q, h⟩
    refine ⟨mv q, ?_⟩
    have := (hmv.isStack h.mem).2 h
    rwa [List.map_append] at this

theorem SameForm.pullHits {hs' : List Hit} (hq : ∀ h ∈ hs', h.q ∈ pms' ∧ h.kg ∈ h.q.matchKeys) :
    ∃ hs : List Hit, hs.map (moveKey mv mk) = hs' ∧ ∀ h ∈ hs, h.q ∈ pms ∧ h.kg ∈ h.q.matchKeys := by
  induction hs' with
  | nil => exact ⟨[], rfl, by simp⟩
  | cons h' t ih =>
    obtain ⟨hs, h1, h2⟩ := ih fun q h => hq q (List.mem_cons_of_mem _ h)
    obtain ⟨g1, g2⟩ := hq h' List.mem_cons_self
    obtain ⟨q, h3, h4⟩ := hmv.onto h'.q g1
    rw [← h4, hmv.matchKeys] at g2
    obtain ⟨kg, h5, h6⟩ := List.mem_map.1 g2
    refine ⟨⟨q, kg, h'.grid⟩ :: hs, ?_, List.forall_mem_cons.2 ⟨⟨h3, h5⟩, h2⟩⟩
    rw [List.map_cons, h1]
    congr 1
    unfold moveKey
    simp only
    rw [h4, h6]

theorem SameForm.lone {hs : List Hit} (hq : ∀ h ∈ hs, h.q ∈ pms) :
    Lone pms' (hs.map (moveKey mv mk)) ↔ Lone pms hs := by
  constructor
  · rintro ⟨h', e, hx⟩
    obtain ⟨h, rfl, rfl⟩ := List.map_eq_singleton_iff.1 e
    exact ⟨h, rfl, fun hy => hx ((hmv.extendable (qs := [h.q]) (by simpa using hq)).2 hy)⟩
  · rintro ⟨h, rfl, hx⟩
    exact ⟨moveKey mv mk h, rfl, fun hy => hx ((hmv.extendable (qs := [h.q]) (by simpa using hq)).1 hy)⟩

theorem SameForm.loses {hs : List Hit} (hq : ∀ h ∈ hs, h.q ∈ pms) :
    LosesPoints pms' (hs.map (moveKey mv mk)) ↔ LosesPoints pms hs := by
  constructor
  · rintro (⟨h', e, hx⟩ | ⟨a', u', l', e, hlt⟩)
    · obtain ⟨h, rfl, rfl⟩ := List.map_eq_singleton_iff.1 e
      exact Or.inl ⟨h, rfl, (hmv.extendable (qs := [h.q]) (by simpa using hq)).1 hx⟩
    · obtain ⟨a, b, rfl, rfl, e2⟩ := List.map_eq_append_iff.1 e
      obtain ⟨u, t, rfl, rfl, e3⟩ := List.map_eq_cons_iff.1 e2
      obtain ⟨l, t', rfl, rfl, e4⟩ := List.map_eq_cons_iff.1 e3
      rw [List.map_eq_nil_iff] at e4
      subst e4
      refine Or.inr ⟨a, u, l, rfl, ?_⟩
      simp only [moveKey, hmv.mask] at hlt
      exact hlt
  · rintro (⟨h, rfl, hx⟩ | ⟨a, u, l, rfl, hlt⟩)
    · exact Or.inl ⟨moveKey mv mk h, rfl, (hmv.extendable (qs := [h.q]) (by simpa using hq)).2 hx⟩
    · refine Or.inr ⟨a.map (moveKey mv mk), moveKey mv mk u, moveKey mv mk l, by simp, ?_⟩
      simp only [moveKey, hmv.mask]
      exact hlt

theorem SameForm.tile {h : Hit} (hq : h.q ∈ pms) : (moveKey mv mk h).tile = h.tile := by
  unfold Hit.tile tileOf
  change ((mv h.q).store.zoom, _) = _
  rw [hmv.zoom _ hq]
  rfl

theorem SameForm.pullStacks {l' : List (List Subquery)} (h : ∀ qs ∈ l', ∀ q ∈ qs, q ∈ pms') :
    ∃ l : List (List Subquery), l.map (List.map mv) = l' ∧ ∀ qs ∈ l, ∀ q ∈ qs, q ∈ pms := by
  induction l' with
  | nil => exact ⟨[], rfl, by simp⟩
  | cons qs' t ih =>
    obtain ⟨l, h1, h2⟩ := ih fun q h' => h q (List.mem_cons_of_mem _ h')
    obtain ⟨qs, h3, h4⟩ := hmv.pull (h qs' List.mem_cons_self)
    exact ⟨qs :: l, by rw [List.map_cons, h1, h3], List.forall_mem_cons.2 ⟨h4, h2⟩⟩

end

section
variable {mv : Subquery → Subquery} {mk : Subquery → KeyWithId → KeyWithId}
  {pms pms' : List Subquery} (hmv : Shapes mv mk pms pms')
include hmv

theorem Shapes.groupKeys : ∀ {a b : List Subquery}, (∀ q ∈ a, q ∈ pms) → (∀ q ∈ b, q ∈ pms) →
    groupKeys a = groupKeys b → groupKeys (a.map mv) = Spec.groupKeys (b.map mv) := by
  intro a
  unfold Spec.groupKeys
  induction a with
  | nil =>
    intro b _ _ h
    rw [List.map_eq_nil_iff.1 (h.symm.trans List.map_nil)]
  | cons x a ih =>
    intro b ha hb h
    cases b with
    | nil => simp at h
    | cons y b =>
      rw [List.map_cons, List.map_cons] at h
      obtain ⟨h1, h2⟩ := List.cons.inj h
      simp only [Prod.mk.injEq] at h1
      rw [List.map_cons, List.map_cons, List.map_cons, List.map_cons,
        ih (fun q hq => ha q (List.mem_cons_of_mem _ hq))
          (fun q hq => hb q (List.mem_cons_of_mem _ hq)) h2,
        hmv.groups x (ha x List.mem_cons_self) y (hb y List.mem_cons_self) h1.1 h1.2.1 h1.2.2,
        hmv.idx, hmv.idx, hmv.mask, hmv.mask, h1.2.1, h1.2.2]

theorem Shapes.few {n : ℕ} (h : FewGroupStacks n pms) : FewGroupStacks n pms' := by
  intro l' h1 h2
  obtain ⟨l, rfl, hl⟩ := hmv.pullStacks fun qs hqs => (h2 qs hqs).2.1.mem
  rw [List.length_map]
  refine h l ?_ fun qs hqs => ?_
  · rw [List.map_map] at h1
    exact nodup_map_of h1 fun a ha b hb e => hmv.groupKeys (hl a ha) (hl b hb) e
  · obtain ⟨a1, a2, a3⟩ := h2 _ (List.mem_map_of_mem hqs)
    exact ⟨fun e => a1 (by rw [e]; rfl), (hmv.isStack (hl qs hqs)).1 a2,
      fun hx => a3 ((hmv.extendable (hl qs hqs)).2 hx)⟩

theorem Shapes.room (hcost : SameCost mv mk pms) (h : RoomForGroups pms) : RoomForGroups pms' := by
  intro l' h1 h2
  obtain ⟨l, rfl, hl⟩ := hmv.pullStacks fun qs hqs => (h2 qs hqs).2.mem
  have hr : RoomFor (lastScans l) := by
    refine h l ?_ fun qs hqs => ?_
    · rw [List.map_map] at h1
      refine nodup_map_of h1 fun a ha b hb e => ?_
      obtain ⟨e1, e2⟩ := Prod.mk.injEq .. ▸ e
      simp only [Function.comp, List.getLast?_map, hmv.groupKeys (hl a ha) (hl b hb) e1, e2]
    · obtain ⟨a1, a2⟩ := h2 _ (List.mem_map_of_mem hqs)
      exact ⟨fun e => a1 (by rw [e]; rfl), (hmv.isStack (hl qs hqs)).1 a2⟩
  have e : lastScans (l.map (List.map mv)) = (lastScans l).map fun s => (mv s.1, mk s.1 s.2) := by
    unfold lastScans
    rw [List.flatMap_map, List.map_flatMap]
    congr 1
    funext qs
    rw [List.getLast?_map]
    cases qs.getLast? with
    | none => rfl
    | some q => simp [hmv.matchKeys]
  have hmem : ∀ s ∈ lastScans l, s.1 ∈ pms ∧ s.2 ∈ s.1.matchKeys := by
    intro s hs
    obtain ⟨qs, hqs, hs⟩ := List.mem_flatMap.1 hs
    obtain ⟨q, hq, hs⟩ := List.mem_flatMap.1 hs
    obtain ⟨kg, hk, rfl⟩ := List.mem_map.1 hs
    exact ⟨hl qs hqs q (List.mem_of_getLast? (Option.mem_toList.1 hq)), hk⟩
  have hzs : ∀ s ∈ lastScans l, (mv s.1).store.zoom = s.1.store.zoom := fun s hs =>
    hmv.zoom _ (hmem s hs).1
  have hone : ∀ s : Subquery × KeyWithId, CoversOne (mv s.1, mk s.1 s.2) → CoversOne s := by
    intro s hs
    unfold CoversOne at hs ⊢
    simp only [hmv.mask] at hs
    exact hs
  have hhigh : ∀ s ∈ lastScans l, HighScan (mv s.1, mk s.1 s.2) → HighScan s := by
    intro s hs hh
    unfold HighScan at hh ⊢
    simp only [hzs s hs, hcost.nearbyOnly] at hh
    exact hh
  have hwide : ∀ s ∈ lastScans l, WideScan (mv s.1, mk s.1 s.2) → WideScan s := fun s hs =>
    hcost.wide _ (hmem s hs).1 _ (hmem s hs).2
  rw [e]
  refine ⟨?_, AtMost.map hr.letters ?_, AtMost.map hr.words ?_, AtMost.map hr.ranges ?_,
    AtMost.map hr.highs hhigh⟩
  · intro s' hs' hw ho
    obtain ⟨s, hs, rfl⟩ := List.mem_map.1 hs'
    simp only [hzs s hs]
    exact hr.worth s hs (hwide s hs hw) (hone s ho)
  · rintro s hs ⟨a, b, c⟩
    exact ⟨hwide s hs a, hone s b, by rw [hcost.phraseLength] at c; exact c⟩
  · rintro s hs ⟨a, b⟩
    exact ⟨hwide s hs a, hone s b⟩
  · rintro s hs ⟨a, b⟩
    exact ⟨hwide s hs a, hhigh s hs b⟩

end

end Carmen
