import Verif.Spec.Tuned
import Verif.Props.Exclude

/-!
# C111 and C112: what indexes are opened with
-/

namespace Carmen
open Spec

/-! ## Queries -/

theorem decodeMatching_tune (M : KMerger) (chk : Bool) {opts : MatchOpts} {r r' : F64}
    (h : opts.proximity = none ∨ r = r') (ml : Bool) (v : Bytes) :
    decodeMatching M chk opts ml r v = decodeMatching M chk opts ml r' v := by
  rcases h with h | rfl
  · have e : scoreCoord opts r = scoreCoord opts r' := by
      funext score c
      unfold scoreCoord
      rw [h]
    unfold decodeMatching
    rw [e]
  · rfl

theorem fillQueue_tune (M : KMerger) (H : Heap QueueElement.key) (chk : Bool) (s : Store) (r m : F64)
    (bs : List BBox) (mk : MatchKey) {opts : MatchOpts} (h : opts.proximity = none ∨ r = s.radius) (maxValues : ℕ)
    (rows : List (Bytes × Bytes)) (q : List QueueElement) :
    Store.fillQueue M H chk { s with radius := r, maxScore := m, bboxes := bs } mk opts maxValues q rows =
      Store.fillQueue M H chk s mk opts maxValues q rows := by
  induction rows generalizing q with
  | nil => rfl
  | cons x rows ih =>
    unfold Store.fillQueue
    have e : Store.rowElement M chk { s with radius := r, maxScore := m, bboxes := bs } mk opts x =
        s.rowElement M chk mk opts x := by
      unfold Store.rowElement
      congr 1
      funext ml
      rw [decodeMatching_tune M chk h]
    rw [e]
    congr 1
    funext x
    cases x with
    | none => exact ih q
    | some x =>
      dsimp only
      congr 1
      funext q
      exact ih q

/-- **C111**: a query never depends on the greatest score and the bounding boxes of the index, and on its
radius only if it is from a point. -/
theorem C111_query (M : KMerger) (H : Heap QueueElement.key) (chk : Bool) (s : Store) (r m : F64)
    (bs : List BBox) (mk : MatchKey) {opts : MatchOpts} (h : opts.proximity = none ∨ r = s.radius) (maxValues : ℕ) :
    Store.getMatching M H chk { s with radius := r, maxScore := m, bboxes := bs } mk opts maxValues =
      s.getMatching M H chk mk opts maxValues := by
  unfold Store.getMatching
  have e : Store.queryRows { s with radius := r, maxScore := m, bboxes := bs } chk mk = s.queryRows chk mk := rfl
  rw [e]
  congr 1
  funext rows
  rw [fillQueue_tune _ _ _ _ _ _ _ _ h]

theorem lookup_no_point {env : Env} {opts : MatchOpts} (h : opts.proximity = none) {q : Subquery}
    {kg : KeyWithId} {o : MatchOpts} (e : lookupOpts env opts q kg = some o) : o.proximity = none := by
  unfold lookupOpts at e
  obtain ⟨o', h1, h2⟩ := Option.bind_eq_some_iff.1 e
  have h3 : o'.proximity = none := by
    unfold Env.adjust at h1
    split at h1
    · unfold MatchOpts.adjustToZoomChecked at h1
      split at h1
      · cases h1
        exact h
      · rw [h] at h1
        obtain ⟨p, h2, h1⟩ := Option.bind_eq_some_iff.1 h1
        cases h2
        cases hb : opts.bbox with
        | none =>
          rw [hb] at h1
          cases h1
          rfl
        | some b =>
          rw [hb] at h1
          obtain ⟨b, -, h1⟩ := Option.bind_eq_some_iff.1 h1
          cases h1
          rfl
    · cases h1
      unfold MatchOpts.adjustToZoom
      split
      · exact h
      · rw [h]
        rfl
  cases hn : kg.nearbyOnly <;> cases hc : env.chk <;> simp only [hn, hc] at h2
  · cases h2
    exact h3
  · cases h2
    exact h3
  · cases h2
    unfold MatchOpts.withNearbyOnly
    rw [h3]
    exact h3
  · unfold MatchOpts.withNearbyOnlyChecked at h2
    rw [h3] at h2
    cases h2
    exact h3

theorem query_tune {env : Env} {f : Store → Settings} {opts : MatchOpts} {pms : List Subquery}
    (hr : RadiusIdle f opts pms) {q : Subquery} (hq : q ∈ pms) {kg : KeyWithId} {o : MatchOpts}
    (e : lookupOpts env opts q kg = some o) (n : ℕ) :
    env.query (tuned f q).store kg.key o n = env.query q.store kg.key o n :=
  C111_query _ _ _ _ _ _ _ _ (hr.imp (fun h => lookup_no_point h e) fun h => h q hq) _

/-! ## Stacks and contexts -/

section
variable {f : Store → Settings} {pms : List Subquery}

theorem tune_isStack {qs : List Subquery} (hq : ∀ q ∈ qs, q ∈ pms) :
    IsStack (pms.map (tuned f)) (qs.map (tuned f)) ↔ IsStack pms qs := by
  constructor
  · intro h
    refine ⟨hq, ?_, (List.pairwise_map (f := tuned f)).1 h.masks,
      (List.isChain_map (tuned f)).1 h.neighbours, ?_⟩
    · exact ((List.pairwise_map (f := tuned f)).1 h.types)
    · intro q hq'
      exact h.root (tuned f q) (by rw [List.head?_map, Option.mem_def.1 hq']; rfl)
  · intro h
    refine ⟨?_, ?_, List.pairwise_map.2 h.masks, (List.isChain_map _).2 h.neighbours, ?_⟩
    · intro q hq'
      obtain ⟨a, ha, rfl⟩ := List.mem_map.1 hq'
      exact List.mem_map_of_mem (hq a ha)
    · exact List.pairwise_map.2 (h.types)
    · intro q hq'
      rw [List.head?_map, Option.mem_def, Option.map_eq_some_iff] at hq'
      obtain ⟨a, ha, rfl⟩ := hq'
      exact h.root a ha

theorem tune_pull {qs' : List Subquery} (hq : ∀ q ∈ qs', q ∈ pms.map (tuned f)) :
    ∃ qs : List Subquery, qs.map (tuned f) = qs' ∧ ∀ q ∈ qs, q ∈ pms := by
  induction qs' with
  | nil => exact ⟨[], rfl, by simp⟩
  | cons q' t ih =>
    obtain ⟨qs, h1, h2⟩ := ih fun q h => hq q (List.mem_cons_of_mem _ h)
    obtain ⟨q, h3, rfl⟩ := List.mem_map.1 (hq q' List.mem_cons_self)
    exact ⟨q :: qs, by rw [List.map_cons, h1], List.forall_mem_cons.2 ⟨h3, h2⟩⟩

theorem tune_pullStacks {l' : List (List Subquery)}
    (h : ∀ qs ∈ l', ∀ q ∈ qs, q ∈ pms.map (tuned f)) :
    ∃ l : List (List Subquery), l.map (List.map (tuned f)) = l' ∧
      ∀ qs ∈ l, ∀ q ∈ qs, q ∈ pms := by
  induction l' with
  | nil => exact ⟨[], rfl, by simp⟩
  | cons qs' t ih =>
    obtain ⟨l, h1, h2⟩ := ih fun q h' => h q (List.mem_cons_of_mem _ h')
    obtain ⟨qs, h3, h4⟩ := tune_pull (h qs' List.mem_cons_self)
    exact ⟨qs :: l, by rw [List.map_cons, h1, h3], List.forall_mem_cons.2 ⟨h4, h2⟩⟩

theorem tune_extendable {qs : List Subquery} (hq : ∀ q ∈ qs, q ∈ pms) :
    Extendable (pms.map (tuned f)) (qs.map (tuned f)) ↔ Extendable pms qs := by
  constructor
  · rintro ⟨q', h⟩
    obtain ⟨q, h1, rfl⟩ := List.mem_map.1 (h.mem q' (by simp))
    refine ⟨q, (tune_isStack ?_).1 (by rwa [List.map_append])⟩
    intro a ha
    rcases List.mem_append.1 ha with ha | ha
    · exact hq a ha
    · rw [List.mem_singleton.1 ha]; exact h1
  · rintro ⟨q, h⟩
    refine ⟨tuned f q, ?_⟩
    have := (tune_isStack (f := f) h.mem).2 h
    rwa [List.map_append] at this

/-- The hit in the other request. -/
def tuneHit (f : Store → Settings) (h : Hit) : Hit := { h with q := tuned f h.q }

theorem tune_answers {env : Env} {opts : MatchOpts} (hr : RadiusIdle f opts pms) {limit : ℕ} {h : Hit}
    (hq : h.q ∈ pms) : (tuneHit f h).Answers env opts limit ↔ h.Answers env opts limit := by
  refine and_congr_right fun _ => exists_congr fun o => exists_congr fun grids =>
    and_congr_right fun e => ?_
  have := query_tune hr hq (kg := h.kg) e limit
  change env.query (tuned f h.q).store h.kg.key o limit = some grids ∧ _ ↔ _
  rw [this]
  exact Iff.rfl

theorem tune_first {env : Env} {opts : MatchOpts} (hr : RadiusIdle f opts pms) {h : Hit}
    (hq : h.q ∈ pms) : (tuneHit f h).FirstAnswer env opts ↔ h.FirstAnswer env opts := by
  refine and_congr_right fun _ => exists_congr fun o => exists_congr fun before =>
    exists_congr fun after => and_congr_right fun e => ?_
  have := query_tune hr hq (kg := h.kg) e 100000
  change env.query (tuned f h.q).store h.kg.key o 100000 = some _ ∧ _ ↔ _
  rw [this]
  exact Iff.rfl

theorem tune_pullHits {hs' : List Hit} (hq : ∀ h ∈ hs', h.q ∈ pms.map (tuned f)) :
    ∃ hs : List Hit, hs.map (tuneHit f) = hs' ∧ ∀ h ∈ hs, h.q ∈ pms := by
  induction hs' with
  | nil => exact ⟨[], rfl, by simp⟩
  | cons h' t ih =>
    obtain ⟨hs, h1, h2⟩ := ih fun q h => hq q (List.mem_cons_of_mem _ h)
    obtain ⟨q, h3, h4⟩ := List.mem_map.1 (hq h' List.mem_cons_self)
    refine ⟨⟨q, h'.kg, h'.grid⟩ :: hs, ?_, List.forall_mem_cons.2 ⟨h3, h2⟩⟩
    rw [List.map_cons, h1]
    congr 1
    unfold tuneHit
    rw [h4]

theorem tune_lone {hs : List Hit} (hq : ∀ h ∈ hs, h.q ∈ pms) :
    Lone (pms.map (tuned f)) (hs.map (tuneHit f)) ↔ Lone pms hs := by
  constructor
  · rintro ⟨h', e, hx⟩
    obtain ⟨h, rfl, rfl⟩ := List.map_eq_singleton_iff.1 e
    exact ⟨h, rfl, fun hy => hx ((tune_extendable (qs := [h.q]) (by simpa using hq)).2 hy)⟩
  · rintro ⟨h, rfl, hx⟩
    exact ⟨tuneHit f h, rfl,
      fun hy => hx ((tune_extendable (qs := [h.q]) (by simpa using hq)).1 hy)⟩

theorem tune_loses {hs : List Hit} (hq : ∀ h ∈ hs, h.q ∈ pms) :
    LosesPoints (pms.map (tuned f)) (hs.map (tuneHit f)) ↔ LosesPoints pms hs := by
  constructor
  · rintro (⟨h', e, hx⟩ | ⟨a', u', l', e, hlt⟩)
    · obtain ⟨h, rfl, rfl⟩ := List.map_eq_singleton_iff.1 e
      exact Or.inl ⟨h, rfl, (tune_extendable (qs := [h.q]) (by simpa using hq)).1 hx⟩
    · obtain ⟨a, b, rfl, rfl, e2⟩ := List.map_eq_append_iff.1 e
      obtain ⟨u, t, rfl, rfl, e3⟩ := List.map_eq_cons_iff.1 e2
      obtain ⟨l, t', rfl, rfl, e4⟩ := List.map_eq_cons_iff.1 e3
      rw [List.map_eq_nil_iff] at e4
      subst e4
      exact Or.inr ⟨a, u, l, rfl, hlt⟩
  · rintro (⟨h, rfl, hx⟩ | ⟨a, u, l, rfl, hlt⟩)
    · exact Or.inl ⟨tuneHit f h, rfl,
        (tune_extendable (qs := [h.q]) (by simpa using hq)).2 hx⟩
    · exact Or.inr ⟨a.map (tuneHit f), tuneHit f u, tuneHit f l, by simp,hlt⟩

theorem tune_keys {a b : List Subquery} :
    groupKeys (a.map (tuned f)) = groupKeys (b.map (tuned f)) ↔
      groupKeys a = groupKeys b := by
  unfold groupKeys
  rw [List.map_map, List.map_map]
  rfl

theorem tune_few {n : ℕ} (h : FewGroupStacks n pms) :
    FewGroupStacks n (pms.map (tuned f)) := by
  intro l' h1 h2
  obtain ⟨l, rfl, hl⟩ := tune_pullStacks fun qs hqs => (h2 qs hqs).2.1.mem
  rw [List.length_map]
  refine h l ?_ fun qs hqs => ?_
  · rw [List.map_map] at h1
    exact nodup_map_of h1 fun a ha b hb e => tune_keys.2 e
  · obtain ⟨a1, a2, a3⟩ := h2 _ (List.mem_map_of_mem hqs)
    exact ⟨fun e => a1 (by rw [e]; rfl), (tune_isStack (hl qs hqs)).1 a2,
      fun hx => a3 ((tune_extendable (hl qs hqs)).2 hx)⟩

theorem tune_room (h : RoomForGroups pms) : RoomForGroups (pms.map (tuned f)) := by
  intro l' h1 h2
  obtain ⟨l, rfl, hl⟩ := tune_pullStacks fun qs hqs => (h2 qs hqs).2.mem
  have hr : RoomFor (lastScans l) := by
    refine h l ?_ fun qs hqs => ?_
    · rw [List.map_map] at h1
      refine nodup_map_of h1 fun a ha b hb e => ?_
      obtain ⟨e1, e2⟩ := Prod.mk.injEq .. ▸ e
      simp only [Function.comp, List.getLast?_map, tune_keys.2 e1, e2]
    · obtain ⟨a1, a2⟩ := h2 _ (List.mem_map_of_mem hqs)
      exact ⟨fun e => a1 (by rw [e]; rfl), (tune_isStack (hl qs hqs)).1 a2⟩
  have e : lastScans (l.map (List.map (tuned f))) =
      (lastScans l).map fun s => (tuned f s.1, s.2) := by
    unfold lastScans
    rw [List.flatMap_map, List.map_flatMap]
    congr 1
    funext qs
    rw [List.getLast?_map]
    cases qs.getLast? with
    | none => rfl
    | some q => simp [tuned]
  rw [e]
  refine ⟨?_, AtMost.map hr.letters ?_, AtMost.map hr.words ?_, AtMost.map hr.ranges ?_,
    AtMost.map hr.highs fun _ _ h => h⟩
  · intro s' hs' hw ho
    obtain ⟨s, hs, rfl⟩ := List.mem_map.1 hs'
    exact hr.worth s hs hw ho
  · rintro s hs ⟨a, b, c⟩
    exact ⟨a, b, c⟩
  · rintro s hs ⟨a, b⟩
    exact ⟨a, b⟩
  · rintro s hs ⟨a, b⟩
    exact ⟨a, b⟩

variable {env : Env} {opts : MatchOpts} (hr : RadiusIdle f opts pms)
  (hb : ∀ q ∈ pms, ∀ z x y, Meets (tuned f q).store z x y ↔ Meets q.store z x y)
include hr

theorem tune_contextOf {hs : List Hit} (hq : ∀ h ∈ hs, h.q ∈ pms) {c : Context} :
    ContextOf env opts (pms.map (tuned f)) (hs.map (tuneHit f)) c ↔
      ContextOf env opts pms hs c := by
  have hmapq : (hs.map (tuneHit f)).map Hit.q = (hs.map Hit.q).map (tuned f) := by
    rw [List.map_map, List.map_map]; rfl
  have hrel : (hs.map (tuneHit f)).map Hit.relev = hs.map Hit.relev := by
    rw [List.map_map]; rfl
  have hmask : (hs.map (tuneHit f)).map (·.q.mask) = hs.map (·.q.mask) := by
    rw [List.map_map]; rfl
  have hqm : ∀ q ∈ hs.map Hit.q, q ∈ pms := by
    intro q hq'
    obtain ⟨x, hx, rfl⟩ := List.mem_map.1 hq'
    exact hq x hx
  have hent : List.Forall₂ (fun h e => MadeFrom h.q h.grid e ∧ e.phrasematchId = h.kg.id)
      (hs.map (tuneHit f)).reverse c.entries ↔
      List.Forall₂ (fun h e => MadeFrom h.q h.grid e ∧ e.phrasematchId = h.kg.id) hs.reverse
        c.entries := by
    rw [← List.map_reverse, List.forall₂_map_left_iff]
    rfl
  constructor
  · intro h
    have hst := h.stack
    rw [hmapq] at hst
    refine ⟨by simpa using h.ne, (tune_isStack hqm).1 hst, ?_, hent.1 h.entries,
      (List.isChain_map (tuneHit f)).1 h.tiles, by rw [h.mask, hmask], ?_, ?_, ?_⟩
    · intro x hx limit h3 h4
      rw [← tune_lone hq] at h3 h4
      exact (tune_answers hr (hq x hx)).1 (h.answers (tuneHit f x) (List.mem_map_of_mem hx) limit h3 h4)
    · intro hn
      rw [← tune_loses hq] at hn
      rw [h.plain hn, hrel]
    · intro hn
      rw [← tune_loses hq] at hn
      rw [h.penalty hn, hrel]
    · intro hn x hx
      rw [← tune_lone hq] at hn
      exact (tune_first hr (hq x hx)).1 (h.first hn (tuneHit f x) (List.mem_map_of_mem hx))
  · intro h
    refine ⟨by simpa using h.ne, ?_, ?_, hent.2 h.entries,
      (List.isChain_map (tuneHit f)).2 h.tiles, by rw [h.mask, hmask], ?_, ?_, ?_⟩
    · rw [hmapq]
      exact (tune_isStack hqm).2 h.stack
    · intro x hx limit h3 h4
      obtain ⟨x, hx', rfl⟩ := List.mem_map.1 hx
      rw [tune_lone hq] at h3 h4
      exact (tune_answers hr (hq x hx')).2 (h.answers x hx' limit h3 h4)
    · intro hn
      rw [tune_loses hq] at hn
      rw [hrel, h.plain hn]
    · intro hn
      rw [tune_loses hq] at hn
      rw [hrel, h.penalty hn]
    · intro hn x hx
      obtain ⟨x, hx', rfl⟩ := List.mem_map.1 hx
      rw [tune_lone hq] at hn
      exact (tune_first hr (hq x hx')).2 (h.first hn x hx')

theorem tune_over {above : List Subquery} {hs : List Hit} (hq : ∀ h ∈ hs, h.q ∈ pms) :
    HitsOver env opts (pms.map (tuned f)) (above.map (tuned f))
      (hs.map (tuneHit f)) ↔ HitsOver env opts pms above hs := by
  have hmapq : (hs.map (tuneHit f)).map Hit.q = (hs.map Hit.q).map (tuned f) := by
    rw [List.map_map, List.map_map]; rfl
  constructor
  · intro h
    refine ⟨?_, hq, fun x hx => (tune_first hr (hq x hx)).1 (h.answers (tuneHit f x) (List.mem_map_of_mem hx)),
      (List.isChain_map (tuneHit f)).1 h.tiles⟩
    have := h.keys
    rw [hmapq] at this
    exact tune_keys.1 this
  · intro h
    refine ⟨?_, ?_, ?_, (List.isChain_map (tuneHit f)).2 h.tiles⟩
    · rw [hmapq]
      exact tune_keys.2 h.keys
    · intro x hx
      obtain ⟨x, hx', rfl⟩ := List.mem_map.1 hx
      exact List.mem_map_of_mem (hq x hx')
    · intro x hx
      obtain ⟨x, hx', rfl⟩ := List.mem_map.1 hx
      exact (tune_first hr (hq x hx')).2 (h.answers x hx')

include hb in
theorem tune_notCut {qs : List Subquery} (hqs : ∀ q ∈ qs, q ∈ pms) :
    NotCut env opts (pms.map (tuned f)) (qs.map (tuned f)) ↔
      NotCut env opts pms qs := by
  constructor
  · intro h above q below e hne
    subst e
    obtain ⟨tops, last, h1, h2⟩ := h (above.map (tuned f)) (tuned f q)
      (below.map (tuned f)) (by simp) (by simpa using hne)
    obtain ⟨hs, h3, h4⟩ := tune_pullHits h1.mem
    rw [← h3] at h1
    obtain ⟨tops, l, rfl, rfl, h5⟩ := List.map_eq_append_iff.1 h3
    obtain ⟨last, rfl, rfl⟩ := List.map_eq_singleton_iff.1 h5
    exact ⟨tops, last, (tune_over hr h4).1 h1, (hb q (hqs q (by simp)) _ _ _).1 h2⟩
  · intro h above' q' below' e hne
    obtain ⟨above, rest, rfl, rfl, hrest⟩ := List.map_eq_append_iff.1 e
    obtain ⟨q, below, rfl, rfl, rfl⟩ := List.map_eq_cons_iff.1 hrest
    obtain ⟨tops, last, h1, h2⟩ := h above q below rfl (by simpa using hne)
    refine ⟨tops.map (tuneHit f), tuneHit f last, ?_, (hb q (hqs q (by simp)) _ _ _).2 h2⟩
    have := (tune_over hr h1.mem).2 h1
    rwa [List.map_append] at this

theorem tune_loneResult {c : Context} :
    LoneResult env opts (pms.map (tuned f)) c ↔ LoneResult env opts pms c := by
  constructor
  · rintro ⟨q', kg, o, grids, all, h1, h2, h3, h4, h5, h6, h7⟩
    obtain ⟨q, hqm, rfl⟩ := List.mem_map.1 (h1.mem q' (by simp))
    have hq : ∀ a ∈ [q], a ∈ pms := by simpa using hqm
    exact ⟨q, kg, o, grids, all, (tune_isStack hq).1 h1,
      fun hx => h2 ((tune_extendable hq).2 hx), h3, h4, by rwa [query_tune hr hqm h4] at h5, h6, h7⟩
  · rintro ⟨q, kg, o, grids, all, h1, h2, h3, h4, h5, h6, h7⟩
    have hq : ∀ a ∈ [q], a ∈ pms := h1.mem
    exact ⟨tuned f q, kg, o, grids, all, (tune_isStack hq).2 h1,
      fun hx => h2 ((tune_extendable hq).1 hx), h3, h4, by rwa [query_tune hr (hq q (by simp)) h4], h6, h7⟩

include hb in
theorem tune_returned {c : Context} :
    IsReturned env opts (pms.map (tuned f)) c ↔ IsReturned env opts pms c := by
  refine or_congr ?_ (tune_loneResult hr)
  constructor
  · rintro ⟨hs', h1, h2, h3⟩
    obtain ⟨hs, rfl, hq⟩ := tune_pullHits (f := f) (pms := pms) (hs' := hs')
      fun x hx => h3.stack.mem _ (List.mem_map_of_mem hx)
    refine ⟨hs, fun hl => h1 ((tune_lone hq).2 hl), ?_, (tune_contextOf hr hq).1 h3⟩
    refine (tune_notCut hr hb fun q hq' => ?_).1 ?_
    · obtain ⟨x, hx, rfl⟩ := List.mem_map.1 hq'
      exact hq x hx
    rw [List.map_map] at h2 ⊢
    exact h2
  · rintro ⟨hs, h1, h2, h3⟩
    have hq : ∀ h ∈ hs, h.q ∈ pms := fun x hx => h3.stack.mem _ (List.mem_map_of_mem hx)
    refine ⟨hs.map (tuneHit f), fun hl => h1 ((tune_lone hq).1 hl), ?_,
      (tune_contextOf hr hq).2 h3⟩
    have := (tune_notCut hr hb (env := env) fun q hq' => by
      obtain ⟨x, hx, rfl⟩ := List.mem_map.1 hq'
      exact hq x hx).2 h2
    rw [List.map_map] at this ⊢
    exact this

omit hr in
theorem tune_delivered (h : Delivered pms) : Delivered (pms.map (tuned f)) := by
  refine ⟨?_, ?_, ?_⟩
  · intro q hq
    obtain ⟨q, hq', rfl⟩ := List.mem_map.1 hq
    exact h.one q hq'
  · rw [List.flatMap_map]
    exact h.ids
  · intro a ha b hb e
    obtain ⟨a, ha', rfl⟩ := List.mem_map.1 ha
    obtain ⟨b, hb', rfl⟩ := List.mem_map.1 hb
    obtain ⟨h1, h2⟩ := h.index a ha' b hb' e
    refine ⟨?_, h2⟩
    unfold tuned
    simp only [h1]

omit hr in
theorem tune_zooms (h : ZoomsAscend pms) : ZoomsAscend (pms.map (tuned f)) := by
  intro a ha b hb hlt
  obtain ⟨a, ha', rfl⟩ := List.mem_map.1 ha
  obtain ⟨b, hb', rfl⟩ := List.mem_map.1 hb
  exact h a ha' b hb' hlt

end

theorem tune_same {env env' : TreeEnv} (henv : env.toEnv = env'.toEnv) {f : Store → Settings}
    {qs : List Subquery} {opts : MatchOpts} (hr : RadiusIdle f opts qs)
    (hb : ∀ q ∈ qs, ∀ z x y, Meets (tuned f q).store z x y ↔ Meets q.store z x y) (hd : Delivered qs)
    (hfew : FewGroupStacks 2000 qs) (hz : env.chk = true ∨ ZoomsAscend qs)
    (hroom : RoomForGroups qs) {out out' : List Context}
    (hout : stackAndCoalesce env qs opts = some out)
    (hout' : stackAndCoalesce env' (qs.map (tuned f)) opts = some out')
    (hlen : Short out) (hlen' : Short out') (c : Context) : c ∈ out' ↔ c ∈ out := by
  have hz' : env'.chk = true ∨ ZoomsAscend (qs.map (tuned f)) := by
    rw [← show env.chk = env'.chk from congrArg Env.chk henv]
    exact hz.imp_right tune_zooms
  constructor
  · intro hc
    have := C91_sound (tune_delivered hd) (tune_few hfew) hz' hout' c hc
    rw [← henv] at this
    exact C91_complete hd hfew hz hroom hout hlen c ((tune_returned hr hb).1 this)
  · intro hc
    refine C91_complete (tune_delivered hd) (tune_few hfew) hz' (tune_room hroom) hout' hlen' c ?_
    rw [← henv]
    exact (tune_returned hr hb).2 (C91_sound hd hfew hz hout c hc)

/-- **C111**: with other greatest scores of the indexes, and without a point also with other radiuses,
exactly the same contexts are returned. -/
theorem C111_same {env env' : TreeEnv} (henv : env.toEnv = env'.toEnv) {r m : Store → F64}
    {qs : List Subquery} {opts : MatchOpts}
    (hr : opts.proximity = none ∨ ∀ q ∈ qs, r q.store = q.store.radius) (hd : Delivered qs)
    (hfew : FewGroupStacks 2000 qs) (hz : env.chk = true ∨ ZoomsAscend qs)
    (hroom : RoomForGroups qs) {out out' : List Context}
    (hout : stackAndCoalesce env qs opts = some out)
    (hout' : stackAndCoalesce env' (qs.map (tuned fun s => ⟨r s, m s, s.bboxes⟩)) opts = some out')
    (hlen : Short out) (hlen' : Short out') (c : Context) : c ∈ out' ↔ c ∈ out :=
  tune_same henv (f := fun s => ⟨r s, m s, s.bboxes⟩) hr (fun _ _ _ _ _ => Iff.rfl) hd hfew hz hroom
    hout hout' hlen hlen' c

theorem tile_between {k lo hi x : ℕ} (hk : 0 < k) (h : lo ≤ hi) (h1 : lo / k ≤ x) (h2 : x ≤ hi / k) :
    ∃ x', lo ≤ x' ∧ x' ≤ hi ∧ x' / k = x := by
  have h3 : x * k ≤ hi := (Nat.le_div_iff_mul_le hk).1 h2
  have h4 : lo < (x + 1) * k := (Nat.div_lt_iff_lt_mul hk).1 (by omega)
  refine ⟨max lo (x * k), le_max_left _ _, max_le h h3, ?_⟩
  refine (Nat.div_eq_iff hk).2 ⟨le_max_right _ _, ?_⟩
  rw [add_mul, one_mul] at h4
  have : max lo (x * k) < x * k + k := max_lt h4 (by omega)
  omega

/-- Boxes meet a tile if they cover a tile in it. -/
theorem meets_iff {s : Store} (hp : ProperBoxes s.bboxes) {z x y : ℕ} :
    Meets s z x y ↔ ∃ x' y', InRegion s.bboxes x' y' ∧ x' / 2 ^ (s.zoom - z) = x ∧
      y' / 2 ^ (s.zoom - z) = y := by
  have hk : 0 < 2 ^ (s.zoom - z) := by positivity
  constructor
  · rintro ⟨b, hb, h1, h2, h3, h4⟩
    obtain ⟨x', a1, a2, a3⟩ := tile_between hk (hp b hb).1 h1 h2
    obtain ⟨y', b1, b2, b3⟩ := tile_between hk (hp b hb).2 h3 h4
    exact ⟨x', y', ⟨b, hb, a1, a2, b1, b2⟩, a3, b3⟩
  · rintro ⟨x', y', ⟨b, hb, h1, h2, h3, h4⟩, rfl, rfl⟩
    exact ⟨b, hb, Nat.div_le_div_right h1, Nat.div_le_div_right h2, Nat.div_le_div_right h3,
      Nat.div_le_div_right h4⟩

/-- **C112**: of the bounding boxes only the tiles they cover together matter. -/
theorem C112_same {env env' : TreeEnv} (henv : env.toEnv = env'.toEnv) {f : Store → List BBox}
    {qs : List Subquery} {opts : MatchOpts} (hf : ∀ q ∈ qs, SameRegion q.store (f q.store))
    (hd : Delivered qs) (hfew : FewGroupStacks 2000 qs) (hz : env.chk = true ∨ ZoomsAscend qs)
    (hroom : RoomForGroups qs) {out out' : List Context}
    (hout : stackAndCoalesce env qs opts = some out)
    (hout' : stackAndCoalesce env' (qs.map (withBoxes f)) opts = some out')
    (hlen : Short out) (hlen' : Short out') (c : Context) : c ∈ out' ↔ c ∈ out := by
  refine tune_same henv (f := fun s => ⟨s.radius, s.maxScore, f s⟩) (Or.inr fun _ _ => rfl) ?_ hd hfew
    hz hroom hout hout' hlen hlen' c
  intro q hq z x y
  obtain ⟨h1, h2, h3⟩ := hf q hq
  rw [meets_iff h1, meets_iff (s := (tuned (fun s => ⟨s.radius, s.maxScore, f s⟩) q).store) h2]
  exact exists_congr fun x' => exists_congr fun y' => and_congr_left fun _ => h3 x' y'

/-- **C111**: `coalesce` returns the same with other greatest scores. -/
theorem C111_coalesce (env : Env) (os : ℕ → IterOrder) (m : Store → F64) (stack : List Subquery)
    (opts : MatchOpts) :
    coalesce env os (stack.map (tuned fun s => ⟨s.radius, m s, s.bboxes⟩)) opts = coalesce env os stack opts := by
  refine (coalesce_alike ?_ os opts).symm
  rw [List.forall₂_map_right_iff]
  refine List.forall₂_same.2 fun q _ => ⟨rfl, rfl, ?_⟩
  change Option.Rel _ q.matchKeys.head? q.matchKeys.head?
  cases q.matchKeys.head? with
  | none => exact .none
  | some k => exact .some fun o n => (C111_query _ _ _ _ _ _ _ _ (Or.inr rfl) _).symm

/-! ## Examples -/

/-- A region and a street in it, with any other radiuses and greatest scores. -/
example (r m : Store → F64) : ∃ out,
    stackAndCoalesce (listTreeEnv false) growthMatches plainOpts = some out ∧
    (∃ c ∈ out, c.entries.length = 2) ∧
    ∀ out', stackAndCoalesce (listTreeEnv false) (growthMatches.map (tuned fun s => ⟨r s, m s, s.bboxes⟩))
      plainOpts = some out' →
      Short out' → ∀ c, c ∈ out' ↔ c ∈ out := by
  have h1 : (stackAndCoalesce (listTreeEnv false) growthMatches plainOpts).map
      (fun out => decide (out.length < 40 ∧ ∃ c ∈ out, c.entries.length = 2)) = some true := by
    decide +kernel
  obtain ⟨out, h1, h3⟩ := Option.map_eq_some_iff.1 h1
  obtain ⟨h3, h5⟩ := of_decide_eq_true h3
  have hd : Delivered growthMatches := ⟨by decide +kernel, by decide +kernel, by decide +kernel⟩
  have hroom : RoomForGroups growthMatches :=
    room_of_small (by decide +kernel) (by decide +kernel) (by
      intro q hq kg hk
      simp only [growthMatches, List.mem_cons, List.not_mem_nil, or_false] at hq
      rcases hq with rfl | rfl <;> exact ⟨_, by rw [List.mem_singleton.1 hk]⟩)
  have hz : ZoomsAscend growthMatches := by
    unfold ZoomsAscend
    decide +kernel
  have hfew : FewGroupStacks 2000 growthMatches := few_of_small (by decide +kernel)
  exact ⟨out, h1, h5, fun out' h2 hs =>
    C111_same rfl (.inl rfl) hd hfew (.inr hz) hroom h1 h2 (short_of_few h3) hs⟩

/-- With a radius of 10 and a greatest score of 3 something is returned. -/
example : (stackAndCoalesce (listTreeEnv false) (growthMatches.map (tuned fun s => ⟨.fin 10, .fin 3, s.bboxes⟩))
    plainOpts).map (fun out => decide (out.length < 40 ∧ ∃ c ∈ out, c.entries.length = 2)) =
      some true := by decide +kernel

/-- **C111**: from a point the radius does matter. -/
theorem C111_from_point : ∃ out out',
    stackAndCoalesce (listTreeEnv false) growthMatches ⟨none, some (0, 0), 6⟩ = some out ∧
    stackAndCoalesce (listTreeEnv false) (growthMatches.map (tuned fun s => ⟨.fin 1, s.maxScore, s.bboxes⟩))
      ⟨none, some (0, 0), 6⟩ = some out' ∧ out ≠ [] ∧ ∃ c ∈ out, c ∉ out' := by
  have h : ((stackAndCoalesce (listTreeEnv false) growthMatches ⟨none, some (0, 0), 6⟩).bind fun out =>
      (stackAndCoalesce (listTreeEnv false)
        (growthMatches.map (tuned fun s => ⟨.fin 1, s.maxScore, s.bboxes⟩)) ⟨none, some (0, 0), 6⟩).map fun out' =>
          decide (out ≠ [] ∧ ∃ c ∈ out, c ∉ out')) = some true := by decide +kernel
  obtain ⟨out, h1, h⟩ := Option.bind_eq_some_iff.1 h
  obtain ⟨out', h2, h⟩ := Option.map_eq_some_iff.1 h
  exact ⟨out, out', h1, h2, of_decide_eq_true h⟩

/-- The boxes of the street index in two halves. -/
def halfBoxes (s : Store) : List BBox :=
  if s.zoom = 8 then [⟨0, 0, 127, 255⟩, ⟨128, 0, 255, 255⟩] else s.bboxes

/-- C112: with the box of the street index in halves the same is returned. -/
example : (∀ q ∈ streetBoxes [⟨0, 0, 255, 255⟩], SameRegion q.store (halfBoxes q.store)) ∧
    ∃ out out', stackAndCoalesce (listTreeEnv false) (streetBoxes [⟨0, 0, 255, 255⟩]) plainOpts = some out ∧
    stackAndCoalesce (listTreeEnv false) ((streetBoxes [⟨0, 0, 255, 255⟩]).map (withBoxes halfBoxes))
      plainOpts = some out' ∧ (∃ c ∈ out, c.entries.length = 2) ∧ ∀ c, c ∈ out' ↔ c ∈ out := by
  have hf : ∀ q ∈ streetBoxes [⟨0, 0, 255, 255⟩], SameRegion q.store (halfBoxes q.store) := by
    intro q hq
    simp only [streetBoxes, List.map_cons, List.map_nil, List.mem_cons, List.not_mem_nil, or_false] at hq
    rcases hq with rfl | rfl
    · exact ⟨by unfold ProperBoxes; decide +kernel, by unfold ProperBoxes; decide +kernel,
        fun x y => Iff.rfl⟩
    · refine ⟨by unfold ProperBoxes; decide +kernel, by unfold ProperBoxes; decide +kernel, fun x y => ?_⟩
      change InRegion [⟨0, 0, 127, 255⟩, ⟨128, 0, 255, 255⟩] x y ↔ InRegion [⟨0, 0, 255, 255⟩] x y
      simp only [InRegion, List.mem_cons, List.not_mem_nil, or_false, exists_eq_or_imp, exists_eq_left]
      omega
  obtain ⟨d1, d2, d3, d4⟩ := streetBoxes_hyps [⟨0, 0, 255, 255⟩]
  have h1 : (stackAndCoalesce (listTreeEnv false) (streetBoxes [⟨0, 0, 255, 255⟩]) plainOpts).map
      (fun out => decide (out.length < 40 ∧ ∃ c ∈ out, c.entries.length = 2)) = some true := by
    decide +kernel
  have h2 : (stackAndCoalesce (listTreeEnv false)
      ((streetBoxes [⟨0, 0, 255, 255⟩]).map (withBoxes halfBoxes)) plainOpts).map
      (fun out => decide (out.length < 40)) = some true := by
    decide +kernel
  obtain ⟨out, h1, h3⟩ := Option.map_eq_some_iff.1 h1
  obtain ⟨out', h2, h4⟩ := Option.map_eq_some_iff.1 h2
  obtain ⟨h3, h5⟩ := of_decide_eq_true h3
  exact ⟨hf, out, out', h1, h2, h5, C112_same rfl hf d1 d2 (.inr d3) d4 h1 h2 (short_of_few h3)
    (short_of_few (of_decide_eq_true h4))⟩

end Carmen
