import Verif.Spec.Rekeyed
import Verif.Props.Tuned

/-!
# C113: lengths of phrases, and nearby grids only without a point
-/

namespace Carmen
open Spec

/-! ## Stacks and contexts -/

section
variable {f : KeyWithId → Bool × ℕ} {pms : List Subquery}

theorem rekey_isStack {qs : List Subquery} (hq : ∀ q ∈ qs, q ∈ pms) :
    IsStack (pms.map (rekeyed f)) (qs.map (rekeyed f)) ↔ IsStack pms qs := by
  constructor
  · intro h
    refine ⟨hq, ?_, (List.pairwise_map (f := rekeyed f)).1 h.masks,
      (List.isChain_map (rekeyed f)).1 h.neighbours, ?_⟩
    · exact ((List.pairwise_map (f := rekeyed f)).1 h.types)
    · intro q hq'
      exact h.root (rekeyed f q) (by rw [List.head?_map, Option.mem_def.1 hq']; rfl)
  · intro h
    refine ⟨?_, ?_, List.pairwise_map.2 h.masks, (List.isChain_map _).2 h.neighbours, ?_⟩
    · intro q hq'
      obtain ⟨a, ha, rfl⟩ := List.mem_map.1 hq'
      exact List.mem_map_of_mem (hq a ha)
    · exact List.pairwise_map.2 (h.types)
    · intro q hq'
      rw [List.head?_map, Option.mem_def, Option.map_eq_some_iff] at hq'
      obtain ⟨a, ha, rfl⟩ := hq'
      exact h.root a ha

theorem rekey_pull {qs' : List Subquery} (hq : ∀ q ∈ qs', q ∈ pms.map (rekeyed f)) :
    ∃ qs : List Subquery, qs.map (rekeyed f) = qs' ∧ ∀ q ∈ qs, q ∈ pms := by
  induction qs' with
  | nil => exact ⟨[], rfl, by simp⟩
  | cons q' t ih =>
    obtain ⟨qs, h1, h2⟩ := ih fun q h => hq q (List.mem_cons_of_mem _ h)
    obtain ⟨q, h3, rfl⟩ := List.mem_map.1 (hq q' List.mem_cons_self)
    exact ⟨q :: qs, by rw [List.map_cons, h1], List.forall_mem_cons.2 ⟨h3, h2⟩⟩

theorem rekey_pullStacks {l' : List (List Subquery)}
    (h : ∀ qs ∈ l', ∀ q ∈ qs, q ∈ pms.map (rekeyed f)) :
    ∃ l : List (List Subquery), l.map (List.map (rekeyed f)) = l' ∧
      ∀ qs ∈ l, ∀ q ∈ qs, q ∈ pms := by
  induction l' with
  | nil => exact ⟨[], rfl, by simp⟩
  | cons qs' t ih =>
    obtain ⟨l, h1, h2⟩ := ih fun q h' => h q (List.mem_cons_of_mem _ h')
    obtain ⟨qs, h3, h4⟩ := rekey_pull (h qs' List.mem_cons_self)
    exact ⟨qs :: l, by rw [List.map_cons, h1, h3], List.forall_mem_cons.2 ⟨h4, h2⟩⟩

theorem rekey_extendable {qs : List Subquery} (hq : ∀ q ∈ qs, q ∈ pms) :
    Extendable (pms.map (rekeyed f)) (qs.map (rekeyed f)) ↔ Extendable pms qs := by
  constructor
  · rintro ⟨q', h⟩
    obtain ⟨q, h1, rfl⟩ := List.mem_map.1 (h.mem q' (by simp))
    refine ⟨q, (rekey_isStack ?_).1 (by rwa [List.map_append])⟩
    intro a ha
    rcases List.mem_append.1 ha with ha | ha
    · exact hq a ha
    · rw [List.mem_singleton.1 ha]; exact h1
  · rintro ⟨q, h⟩
    refine ⟨rekeyed f q, ?_⟩
    have := (rekey_isStack (f := f) h.mem).2 h
    rwa [List.map_append] at this

/-- The hit in the other request. -/
def rekeyHit (f : KeyWithId → Bool × ℕ) (h : Hit) : Hit := { h with q := rekeyed f h.q, kg := rekey f h.kg }

theorem rekey_lookup {env : Env} {opts : MatchOpts} (hr : NearbyIdle f opts pms) {q : Subquery}
    (hq : q ∈ pms) {kg : KeyWithId} (hk : kg ∈ q.matchKeys) :
    lookupOpts env opts (rekeyed f q) (rekey f kg) = lookupOpts env opts q kg := by
  rcases hr with h | h
  · have hn : ∀ k : KeyWithId, lookupOpts env opts q k = env.adjust opts q.store.zoom := by
      intro k
      unfold lookupOpts
      cases ha : env.adjust opts q.store.zoom with
      | none => rfl
      | some o =>
        have hp : o.proximity = none := by
          have e : lookupOpts env opts q ⟨k.key, false, 0, 0⟩ = some o := by
            unfold lookupOpts
            rw [ha]
            rfl
          exact lookup_no_point h e
        rw [Option.bind_some]
        cases k.nearbyOnly with
        | false => rfl
        | true =>
          cases env.chk with
          | true =>
            change o.withNearbyOnlyChecked = some o
            unfold MatchOpts.withNearbyOnlyChecked
            rw [hp]
          | false =>
            change some o.withNearbyOnly = some o
            unfold MatchOpts.withNearbyOnly
            rw [hp]
    exact (hn (rekey f kg)).trans (hn kg).symm
  · unfold lookupOpts rekey rekeyed
    simp only [h q hq kg hk]

theorem rekey_answers {env : Env} {opts : MatchOpts} (hr : NearbyIdle f opts pms) {limit : ℕ} {h : Hit}
    (hq : h.q ∈ pms ∧ h.kg ∈ h.q.matchKeys) :
    (rekeyHit f h).Answers env opts limit ↔ h.Answers env opts limit := by
  have := rekey_lookup (env := env) hr hq.1 hq.2
  refine and_congr ⟨fun _ => hq.2, fun _ => List.mem_map_of_mem hq.2⟩ (exists_congr fun o =>
    exists_congr fun grids => and_congr_left fun _ => ?_)
  change lookupOpts env opts (rekeyed f h.q) (rekey f h.kg) = _ ↔ _
  rw [this]

theorem rekey_first {env : Env} {opts : MatchOpts} (hr : NearbyIdle f opts pms) {h : Hit}
    (hq : h.q ∈ pms ∧ h.kg ∈ h.q.matchKeys) :
    (rekeyHit f h).FirstAnswer env opts ↔ h.FirstAnswer env opts := by
  have := rekey_lookup (env := env) hr hq.1 hq.2
  refine and_congr ⟨fun _ => hq.2, fun _ => List.mem_map_of_mem hq.2⟩ (exists_congr fun o =>
    exists_congr fun before => exists_congr fun after => and_congr_left fun _ => ?_)
  change lookupOpts env opts (rekeyed f h.q) (rekey f h.kg) = _ ↔ _
  rw [this]

theorem rekey_pullHits {hs' : List Hit}
    (hq : ∀ h ∈ hs', h.q ∈ pms.map (rekeyed f) ∧ h.kg ∈ h.q.matchKeys) :
    ∃ hs : List Hit, hs.map (rekeyHit f) = hs' ∧ ∀ h ∈ hs, h.q ∈ pms ∧ h.kg ∈ h.q.matchKeys := by
  induction hs' with
  | nil => exact ⟨[], rfl, by simp⟩
  | cons h' t ih =>
    obtain ⟨hs, h1, h2⟩ := ih fun q h => hq q (List.mem_cons_of_mem _ h)
    obtain ⟨h3, h5⟩ := hq h' List.mem_cons_self
    obtain ⟨q, h3, h4⟩ := List.mem_map.1 h3
    rw [← h4] at h5
    obtain ⟨kg, h5, h6⟩ := List.mem_map.1 h5
    refine ⟨⟨q, kg, h'.grid⟩ :: hs, ?_, List.forall_mem_cons.2 ⟨⟨h3, h5⟩, h2⟩⟩
    rw [List.map_cons, h1]
    congr 1
    unfold rekeyHit
    simp only [h4, h6]

theorem rekey_lone {hs : List Hit} (hq : ∀ h ∈ hs, h.q ∈ pms) :
    Lone (pms.map (rekeyed f)) (hs.map (rekeyHit f)) ↔ Lone pms hs := by
  constructor
  · rintro ⟨h', e, hx⟩
    obtain ⟨h, rfl, rfl⟩ := List.map_eq_singleton_iff.1 e
    exact ⟨h, rfl, fun hy => hx ((rekey_extendable (qs := [h.q]) (by simpa using hq)).2 hy)⟩
  · rintro ⟨h, rfl, hx⟩
    exact ⟨rekeyHit f h, rfl,
      fun hy => hx ((rekey_extendable (qs := [h.q]) (by simpa using hq)).1 hy)⟩

theorem rekey_loses {hs : List Hit} (hq : ∀ h ∈ hs, h.q ∈ pms) :
    LosesPoints (pms.map (rekeyed f)) (hs.map (rekeyHit f)) ↔ LosesPoints pms hs := by
  constructor
  · rintro (⟨h', e, hx⟩ | ⟨a', u', l', e, hlt⟩)
    · obtain ⟨h, rfl, rfl⟩ := List.map_eq_singleton_iff.1 e
      exact Or.inl ⟨h, rfl, (rekey_extendable (qs := [h.q]) (by simpa using hq)).1 hx⟩
    · obtain ⟨a, b, rfl, rfl, e2⟩ := List.map_eq_append_iff.1 e
      obtain ⟨u, t, rfl, rfl, e3⟩ := List.map_eq_cons_iff.1 e2
      obtain ⟨l, t', rfl, rfl, e4⟩ := List.map_eq_cons_iff.1 e3
      rw [List.map_eq_nil_iff] at e4
      subst e4
      exact Or.inr ⟨a, u, l, rfl, hlt⟩
  · rintro (⟨h, rfl, hx⟩ | ⟨a, u, l, rfl, hlt⟩)
    · exact Or.inl ⟨rekeyHit f h, rfl,
        (rekey_extendable (qs := [h.q]) (by simpa using hq)).2 hx⟩
    · exact Or.inr ⟨a.map (rekeyHit f), rekeyHit f u, rekeyHit f l, by simp,hlt⟩

theorem rekey_keys {a b : List Subquery} :
    groupKeys (a.map (rekeyed f)) = groupKeys (b.map (rekeyed f)) ↔
      groupKeys a = groupKeys b := by
  unfold groupKeys
  rw [List.map_map, List.map_map]
  rfl

theorem rekey_few {n : ℕ} (h : FewGroupStacks n pms) :
    FewGroupStacks n (pms.map (rekeyed f)) := by
  intro l' h1 h2
  obtain ⟨l, rfl, hl⟩ := rekey_pullStacks fun qs hqs => (h2 qs hqs).2.1.mem
  rw [List.length_map]
  refine h l ?_ fun qs hqs => ?_
  · rw [List.map_map] at h1
    exact nodup_map_of h1 fun a ha b hb e => rekey_keys.2 e
  · obtain ⟨a1, a2, a3⟩ := h2 _ (List.mem_map_of_mem hqs)
    exact ⟨fun e => a1 (by rw [e]; rfl), (rekey_isStack (hl qs hqs)).1 a2,
      fun hx => a3 ((rekey_extendable (hl qs hqs)).2 hx)⟩

variable {env : Env} {opts : MatchOpts} (hr : NearbyIdle f opts pms)
include hr

theorem rekey_contextOf {hs : List Hit} (hq : ∀ h ∈ hs, h.q ∈ pms ∧ h.kg ∈ h.q.matchKeys) {c : Context} :
    ContextOf env opts (pms.map (rekeyed f)) (hs.map (rekeyHit f)) c ↔
      ContextOf env opts pms hs c := by
  have hmapq : (hs.map (rekeyHit f)).map Hit.q = (hs.map Hit.q).map (rekeyed f) := by
    rw [List.map_map, List.map_map]; rfl
  have hrel : (hs.map (rekeyHit f)).map Hit.relev = hs.map Hit.relev := by
    rw [List.map_map]; rfl
  have hmask : (hs.map (rekeyHit f)).map (·.q.mask) = hs.map (·.q.mask) := by
    rw [List.map_map]; rfl
  have hq1 : ∀ h ∈ hs, h.q ∈ pms := fun h hh => (hq h hh).1
  have hqm : ∀ q ∈ hs.map Hit.q, q ∈ pms := by
    intro q hq'
    obtain ⟨x, hx, rfl⟩ := List.mem_map.1 hq'
    exact hq1 x hx
  have hent : List.Forall₂ (fun h e => MadeFrom h.q h.grid e ∧ e.phrasematchId = h.kg.id)
      (hs.map (rekeyHit f)).reverse c.entries ↔
      List.Forall₂ (fun h e => MadeFrom h.q h.grid e ∧ e.phrasematchId = h.kg.id) hs.reverse
        c.entries := by
    rw [← List.map_reverse, List.forall₂_map_left_iff]
    rfl
  constructor
  · intro h
    have hst := h.stack
    rw [hmapq] at hst
    refine ⟨by simpa using h.ne, (rekey_isStack hqm).1 hst, ?_, hent.1 h.entries,
      (List.isChain_map (rekeyHit f)).1 h.tiles, by rw [h.mask, hmask], ?_, ?_, ?_⟩
    · intro x hx limit h3 h4
      rw [← rekey_lone hq1] at h3 h4
      exact (rekey_answers hr (hq x hx)).1 (h.answers (rekeyHit f x) (List.mem_map_of_mem hx) limit h3 h4)
    · intro hn
      rw [← rekey_loses hq1] at hn
      rw [h.plain hn, hrel]
    · intro hn
      rw [← rekey_loses hq1] at hn
      rw [h.penalty hn, hrel]
    · intro hn x hx
      rw [← rekey_lone hq1] at hn
      exact (rekey_first hr (hq x hx)).1 (h.first hn (rekeyHit f x) (List.mem_map_of_mem hx))
  · intro h
    refine ⟨by simpa using h.ne, ?_, ?_, hent.2 h.entries,
      (List.isChain_map (rekeyHit f)).2 h.tiles, by rw [h.mask, hmask], ?_, ?_, ?_⟩
    · rw [hmapq]
      exact (rekey_isStack hqm).2 h.stack
    · intro x hx limit h3 h4
      obtain ⟨x, hx', rfl⟩ := List.mem_map.1 hx
      rw [rekey_lone hq1] at h3 h4
      exact (rekey_answers hr (hq x hx')).2 (h.answers x hx' limit h3 h4)
    · intro hn
      rw [rekey_loses hq1] at hn
      rw [hrel, h.plain hn]
    · intro hn
      rw [rekey_loses hq1] at hn
      rw [hrel, h.penalty hn]
    · intro hn x hx
      obtain ⟨x, hx', rfl⟩ := List.mem_map.1 hx
      rw [rekey_lone hq1] at hn
      exact (rekey_first hr (hq x hx')).2 (h.first hn x hx')

theorem rekey_over {above : List Subquery} {hs : List Hit} (hq : ∀ h ∈ hs, h.q ∈ pms ∧ h.kg ∈ h.q.matchKeys) :
    HitsOver env opts (pms.map (rekeyed f)) (above.map (rekeyed f))
      (hs.map (rekeyHit f)) ↔ HitsOver env opts pms above hs := by
  have hmapq : (hs.map (rekeyHit f)).map Hit.q = (hs.map Hit.q).map (rekeyed f) := by
    rw [List.map_map, List.map_map]; rfl
  constructor
  · intro h
    refine ⟨?_, fun h hh => (hq h hh).1, fun x hx => (rekey_first hr (hq x hx)).1 (h.answers (rekeyHit f x) (List.mem_map_of_mem hx)),
      (List.isChain_map (rekeyHit f)).1 h.tiles⟩
    have := h.keys
    rw [hmapq] at this
    exact rekey_keys.1 this
  · intro h
    refine ⟨?_, ?_, ?_, (List.isChain_map (rekeyHit f)).2 h.tiles⟩
    · rw [hmapq]
      exact rekey_keys.2 h.keys
    · intro x hx
      obtain ⟨x, hx', rfl⟩ := List.mem_map.1 hx
      exact List.mem_map_of_mem (hq x hx').1
    · intro x hx
      obtain ⟨x, hx', rfl⟩ := List.mem_map.1 hx
      exact (rekey_first hr (hq x hx')).2 (h.answers x hx')

theorem rekey_notCut {qs : List Subquery} :
    NotCut env opts (pms.map (rekeyed f)) (qs.map (rekeyed f)) ↔
      NotCut env opts pms qs := by
  constructor
  · intro h above q below e hne
    subst e
    obtain ⟨tops, last, h1, h2⟩ := h (above.map (rekeyed f)) (rekeyed f q)
      (below.map (rekeyed f)) (by simp) (by simpa using hne)
    obtain ⟨hs, h3, h4⟩ := rekey_pullHits fun x hx => ⟨h1.mem x hx, (h1.answers x hx).1⟩
    rw [← h3] at h1
    obtain ⟨tops, l, rfl, rfl, h5⟩ := List.map_eq_append_iff.1 h3
    obtain ⟨last, rfl, rfl⟩ := List.map_eq_singleton_iff.1 h5
    exact ⟨tops, last, (rekey_over hr h4).1 h1, h2⟩
  · intro h above' q' below' e hne
    obtain ⟨above, rest, rfl, rfl, hrest⟩ := List.map_eq_append_iff.1 e
    obtain ⟨q, below, rfl, rfl, rfl⟩ := List.map_eq_cons_iff.1 hrest
    obtain ⟨tops, last, h1, h2⟩ := h above q below rfl (by simpa using hne)
    refine ⟨tops.map (rekeyHit f), rekeyHit f last, ?_, h2⟩
    have := (rekey_over hr fun x hx => ⟨h1.mem x hx, (h1.answers x hx).1⟩).2 h1
    rwa [List.map_append] at this

theorem rekey_loneResult {c : Context} :
    LoneResult env opts (pms.map (rekeyed f)) c ↔ LoneResult env opts pms c := by
  constructor
  · rintro ⟨q', kg', o, grids, all, h1, h2, h3, h4, h5, h6, h7⟩
    obtain ⟨q, hqm, rfl⟩ := List.mem_map.1 (h1.mem q' (by simp))
    obtain ⟨kg, hk, rfl⟩ := List.mem_map.1 h3
    have hq : ∀ a ∈ [q], a ∈ pms := by simpa using hqm
    rw [rekey_lookup hr hqm hk] at h4
    exact ⟨q, kg, o, grids, all, (rekey_isStack hq).1 h1,
      fun hx => h2 ((rekey_extendable hq).2 hx), hk, h4, h5, h6, h7⟩
  · rintro ⟨q, kg, o, grids, all, h1, h2, h3, h4, h5, h6, h7⟩
    have hq : ∀ a ∈ [q], a ∈ pms := h1.mem
    refine ⟨rekeyed f q, rekey f kg, o, grids, all, (rekey_isStack hq).2 h1,
      fun hx => h2 ((rekey_extendable hq).1 hx), List.mem_map_of_mem h3, ?_, h5, h6, h7⟩
    rw [rekey_lookup hr (hq q (by simp)) h3]
    exact h4

theorem rekey_returned {c : Context} :
    IsReturned env opts (pms.map (rekeyed f)) c ↔ IsReturned env opts pms c := by
  refine or_congr ?_ (rekey_loneResult hr)
  constructor
  · rintro ⟨hs', h1, h2, h3⟩
    obtain ⟨hs, rfl, hq⟩ := rekey_pullHits (f := f) (pms := pms) (hs' := hs')
      h3.keys
    refine ⟨hs, fun hl => h1 ((rekey_lone fun h hh => (hq h hh).1).2 hl), ?_, (rekey_contextOf hr hq).1 h3⟩
    refine (rekey_notCut hr).1 ?_
    rw [List.map_map] at h2 ⊢
    exact h2
  · rintro ⟨hs, h1, h2, h3⟩
    have hq := h3.keys
    refine ⟨hs.map (rekeyHit f), fun hl => h1 ((rekey_lone fun h hh => (hq h hh).1).1 hl), ?_,
      (rekey_contextOf hr hq).2 h3⟩
    have := (rekey_notCut hr (env := env)).2 h2
    rw [List.map_map] at this ⊢
    exact this

omit hr in
theorem rekey_delivered (h : Delivered pms) : Delivered (pms.map (rekeyed f)) := by
  refine ⟨?_, ?_, ?_⟩
  · intro q hq
    obtain ⟨q, hq', rfl⟩ := List.mem_map.1 hq
    exact (List.length_map _).trans (h.one q hq')
  · have e : ((pms.map (rekeyed f)).flatMap fun q => q.matchKeys.map KeyWithId.id) =
        pms.flatMap fun q => q.matchKeys.map KeyWithId.id := by
      rw [List.flatMap_map]
      congr 1
      funext q
      exact List.map_map
    rw [e]
    exact h.ids
  · intro a ha b hb e
    obtain ⟨a, ha', rfl⟩ := List.mem_map.1 ha
    obtain ⟨b, hb', rfl⟩ := List.mem_map.1 hb
    exact h.index a ha' b hb' e

omit hr in
theorem rekey_zooms (h : ZoomsAscend pms) : ZoomsAscend (pms.map (rekeyed f)) := by
  intro a ha b hb hlt
  obtain ⟨a, ha', rfl⟩ := List.mem_map.1 ha
  obtain ⟨b, hb', rfl⟩ := List.mem_map.1 hb
  exact h a ha' b hb' hlt

end

/-- **C113**: with other phrase lengths, and without a point also with match keys for nearby grids only or
not, exactly the same contexts are returned, as long as the scan quotas suffice. -/
theorem C113_same {env env' : TreeEnv} (henv : env.toEnv = env'.toEnv) {f : KeyWithId → Bool × ℕ}
    {qs : List Subquery} {opts : MatchOpts} (hr : NearbyIdle f opts qs) (hd : Delivered qs)
    (hfew : FewGroupStacks 2000 qs) (hz : env.chk = true ∨ ZoomsAscend qs)
    (hroom : RoomForGroups qs) (hroom' : RoomForGroups (qs.map (rekeyed f))) {out out' : List Context}
    (hout : stackAndCoalesce env qs opts = some out)
    (hout' : stackAndCoalesce env' (qs.map (rekeyed f)) opts = some out')
    (hlen : Short out) (hlen' : Short out') (c : Context) : c ∈ out' ↔ c ∈ out := by
  have hz' : env'.chk = true ∨ ZoomsAscend (qs.map (rekeyed f)) := by
    rw [← show env.chk = env'.chk from congrArg Env.chk henv]
    exact hz.imp_right rekey_zooms
  constructor
  · intro hc
    have := C91_sound (rekey_delivered hd) (rekey_few hfew) hz' hout' c hc
    rw [← henv] at this
    exact C91_complete hd hfew hz hroom hout hlen c ((rekey_returned hr).1 this)
  · intro hc
    refine C91_complete (rekey_delivered hd) (rekey_few hfew) hz' hroom' hout' hlen' c ?_
    rw [← henv]
    exact (rekey_returned hr).2 (C91_sound hd hfew hz hout c hc)

/-- **C113**: `coalesce` looks neither at phrase lengths nor at whether match keys are for nearby grids
only, not even with a point. -/
theorem C113_coalesce (env : Env) (os : ℕ → IterOrder) (f : KeyWithId → Bool × ℕ)
    (stack : List Subquery) (opts : MatchOpts) :
    coalesce env os (stack.map (rekeyed f)) opts = coalesce env os stack opts := by
  refine (coalesce_alike ?_ os opts).symm
  rw [List.forall₂_map_right_iff]
  refine List.forall₂_same.2 fun q _ => ⟨rfl, rfl, ?_⟩
  change Option.Rel _ q.matchKeys.head? (q.matchKeys.map (rekey f)).head?
  rw [List.head?_map]
  cases q.matchKeys.head? with
  | none => exact .none
  | some k => exact .some fun o n => rfl

/-- C113: with match keys for nearby grids only and phrases of three words the same is returned. -/
example : ∃ out out', stackAndCoalesce (listTreeEnv false) growthMatches plainOpts = some out ∧
    stackAndCoalesce (listTreeEnv false) (growthMatches.map (rekeyed fun _ => (true, 3))) plainOpts =
      some out' ∧ (∃ c ∈ out, c.entries.length = 2) ∧ ∀ c, c ∈ out' ↔ c ∈ out := by
  have h1 : (stackAndCoalesce (listTreeEnv false) growthMatches plainOpts).map
      (fun out => decide (out.length < 40 ∧ ∃ c ∈ out, c.entries.length = 2)) = some true := by
    decide +kernel
  have h2 : (stackAndCoalesce (listTreeEnv false) (growthMatches.map (rekeyed fun _ => (true, 3)))
      plainOpts).map (fun out => decide (out.length < 40)) = some true := by
    decide +kernel
  obtain ⟨out, h1, h3⟩ := Option.map_eq_some_iff.1 h1
  obtain ⟨h3, h5⟩ := of_decide_eq_true h3
  obtain ⟨out', h2, h4⟩ := Option.map_eq_some_iff.1 h2
  have hd : Delivered growthMatches := ⟨by decide +kernel, by decide +kernel, by decide +kernel⟩
  have hroom : RoomForGroups growthMatches :=
    room_of_small (by decide +kernel) (by decide +kernel) (by
      intro q hq kg hk
      simp only [growthMatches, List.mem_cons, List.not_mem_nil, or_false] at hq
      rcases hq with rfl | rfl <;> exact ⟨_, by rw [List.mem_singleton.1 hk]⟩)
  have hroom' : RoomForGroups (growthMatches.map (rekeyed fun _ => (true, 3))) :=
    room_of_small (by decide +kernel) (by decide +kernel) (by
      intro q hq kg hk
      simp only [growthMatches, List.map_cons, List.map_nil, List.mem_cons, List.not_mem_nil,
        or_false] at hq
      rcases hq with rfl | rfl <;> exact ⟨_, by rw [List.mem_singleton.1 hk]; rfl⟩)
  have hz : ZoomsAscend growthMatches := by
    unfold ZoomsAscend
    decide +kernel
  have hfew : FewGroupStacks 2000 growthMatches := few_of_small (by decide +kernel)
  exact ⟨out, out', h1, h2, h5, C113_same rfl (.inl rfl) hd hfew (.inr hz) hroom hroom' h1 h2
    (short_of_few h3) (short_of_few (of_decide_eq_true h4))⟩

/-- The phrase matches of `growthMatches`, of indexes with a radius of 1. -/
def closeMatches : List Subquery := growthMatches.map (tuned fun s => ⟨.fin 1, s.maxScore, s.bboxes⟩)

/-- **C113**: from a point, `stackAndCoalesce` does leave out contexts that are not nearby. -/
theorem C113_from_point : ∃ out out',
    stackAndCoalesce (listTreeEnv false) closeMatches ⟨none, some (0, 0), 6⟩ = some out ∧
    stackAndCoalesce (listTreeEnv false)
      (closeMatches.map (rekeyed fun kg => (true, kg.phraseLength))) ⟨none, some (0, 0), 6⟩ = some out' ∧
    out' ≠ [] ∧ ∃ c ∈ out, c ∉ out' := by
  have h : ((stackAndCoalesce (listTreeEnv false) closeMatches ⟨none, some (0, 0), 6⟩).bind fun out =>
      (stackAndCoalesce (listTreeEnv false)
        (closeMatches.map (rekeyed fun kg => (true, kg.phraseLength))) ⟨none, some (0, 0), 6⟩).map
          fun out' => decide (out' ≠ [] ∧ ∃ c ∈ out, c ∉ out')) = some true := by decide +kernel
  obtain ⟨out, h1, h⟩ := Option.bind_eq_some_iff.1 h
  obtain ⟨out', h2, h⟩ := Option.map_eq_some_iff.1 h
  exact ⟨out, out', h1, h2, of_decide_eq_true h⟩

/-- From the same point `coalesce` returns something for these, the same with such match keys. -/
example : ∃ out, coalesce (listTreeEnv false).toEnv (fun _ => .id) closeMatches ⟨none, some (0, 0), 6⟩ =
      some out ∧ out ≠ [] ∧
    coalesce (listTreeEnv false).toEnv (fun _ => .id) (closeMatches.map (rekeyed fun _ => (true, 1)))
      ⟨none, some (0, 0), 6⟩ = some out := by
  have h : (coalesce (listTreeEnv false).toEnv (fun _ => .id) closeMatches ⟨none, some (0, 0), 6⟩).map
      (fun out => decide (out ≠ [])) = some true := by decide +kernel
  obtain ⟨out, h1, h2⟩ := Option.map_eq_some_iff.1 h
  exact ⟨out, h1, of_decide_eq_true h2, (C113_coalesce _ _ _ _ _).trans h1⟩

end Carmen
