import Verif.Spec.Retype
import Verif.Props.Exclude

/-!
# C106: types of indexes only give their order
-/

namespace Carmen
open Spec

/-! ## Queries -/

theorem fillQueue_retype (M : KMerger) (H : Heap QueueElement.key) (chk : Bool) (s : Store) (t : ℕ)
    (mk : MatchKey) (opts : MatchOpts) (maxValues : ℕ) (rows : List (Bytes × Bytes))
    (q : List QueueElement) :
    Store.fillQueue M H chk { s with typeId := t } mk opts maxValues q rows =
      Store.fillQueue M H chk s mk opts maxValues q rows := by
  induction rows generalizing q with
  | nil => rfl
  | cons r rows ih =>
    unfold Store.fillQueue
    have e : Store.rowElement M chk { s with typeId := t } mk opts r =
        s.rowElement M chk mk opts r := rfl
    rw [e]
    congr 1
    funext x
    cases x with
    | none => exact ih q
    | some x =>
      dsimp only
      congr 1
      funext q
      exact ih q

/-- **C106**: queries do not depend on the type of the index. -/
theorem C106_query (M : KMerger) (H : Heap QueueElement.key) (chk : Bool) (s : Store) (t : ℕ)
    (mk : MatchKey) (opts : MatchOpts) (maxValues : ℕ) :
    Store.getMatching M H chk { s with typeId := t } mk opts maxValues =
      s.getMatching M H chk mk opts maxValues := by
  unfold Store.getMatching
  have e : Store.queryRows { s with typeId := t } chk mk = s.queryRows chk mk := rfl
  rw [e]
  congr 1
  funext rows
  rw [fillQueue_retype]

theorem query_retype (env : Env) (g : ℕ → ℕ) (q : Subquery) (mk : MatchKey) (o : MatchOpts)
    (n : ℕ) : env.query (withType g q).store mk o n = env.query q.store mk o n :=
  C106_query _ _ _ _ _ _ _ _

/-! ## Stacks and contexts -/

section
variable {g : ℕ → ℕ} {pms : List Subquery} (hg : SameTypeOrder g pms)
include hg

theorem retype_isStack {qs : List Subquery} (hq : ∀ q ∈ qs, q ∈ pms) :
    IsStack (pms.map (withType g)) (qs.map (withType g)) ↔ IsStack pms qs := by
  constructor
  · intro h
    refine ⟨hq, ?_, (List.pairwise_map (f := withType g)).1 h.masks,
      (List.isChain_map (withType g)).1 h.neighbours, ?_⟩
    · exact ((List.pairwise_map (f := withType g)).1 h.types).imp_of_mem fun {a b} ha hb e =>
        (hg a (hq a ha) b (hq b hb)).1 e
    · intro q hq'
      exact h.root (withType g q) (by rw [List.head?_map, Option.mem_def.1 hq']; rfl)
  · intro h
    refine ⟨?_, ?_, List.pairwise_map.2 h.masks, (List.isChain_map _).2 h.neighbours, ?_⟩
    · intro q hq'
      obtain ⟨a, ha, rfl⟩ := List.mem_map.1 hq'
      exact List.mem_map_of_mem (hq a ha)
    · exact List.pairwise_map.2 (h.types.imp_of_mem fun {a b} ha hb e =>
        (hg a (hq a ha) b (hq b hb)).2 e)
    · intro q hq'
      rw [List.head?_map, Option.mem_def, Option.map_eq_some_iff] at hq'
      obtain ⟨a, ha, rfl⟩ := hq'
      exact h.root a ha

omit hg in
theorem retype_pull {qs' : List Subquery} (hq : ∀ q ∈ qs', q ∈ pms.map (withType g)) :
    ∃ qs : List Subquery, qs.map (withType g) = qs' ∧ ∀ q ∈ qs, q ∈ pms := by
  induction qs' with
  | nil => exact ⟨[], rfl, by simp⟩
  | cons q' t ih =>
    obtain ⟨qs, h1, h2⟩ := ih fun q h => hq q (List.mem_cons_of_mem _ h)
    obtain ⟨q, h3, rfl⟩ := List.mem_map.1 (hq q' List.mem_cons_self)
    exact ⟨q :: qs, by rw [List.map_cons, h1], List.forall_mem_cons.2 ⟨h3, h2⟩⟩

omit hg in
theorem retype_pullStacks {l' : List (List Subquery)}
    (h : ∀ qs ∈ l', ∀ q ∈ qs, q ∈ pms.map (withType g)) :
    ∃ l : List (List Subquery), l.map (List.map (withType g)) = l' ∧
      ∀ qs ∈ l, ∀ q ∈ qs, q ∈ pms := by
  induction l' with
  | nil => exact ⟨[], rfl, by simp⟩
  | cons qs' t ih =>
    obtain ⟨l, h1, h2⟩ := ih fun q h' => h q (List.mem_cons_of_mem _ h')
    obtain ⟨qs, h3, h4⟩ := retype_pull (h qs' List.mem_cons_self)
    exact ⟨qs :: l, by rw [List.map_cons, h1, h3], List.forall_mem_cons.2 ⟨h4, h2⟩⟩

theorem retype_extendable {qs : List Subquery} (hq : ∀ q ∈ qs, q ∈ pms) :
    Extendable (pms.map (withType g)) (qs.map (withType g)) ↔ Extendable pms qs := by
  constructor
  · rintro ⟨q', h⟩
    obtain ⟨q, h1, rfl⟩ := List.mem_map.1 (h.mem q' (by simp))
    refine ⟨q, (retype_isStack hg ?_).1 (by rwa [List.map_append])⟩
    intro a ha
    rcases List.mem_append.1 ha with ha | ha
    · exact hq a ha
    · rw [List.mem_singleton.1 ha]; exact h1
  · rintro ⟨q, h⟩
    refine ⟨withType g q, ?_⟩
    have := (retype_isStack hg h.mem).2 h
    rwa [List.map_append] at this

/-- The hit in the other request. -/
def retypeHit (g : ℕ → ℕ) (h : Hit) : Hit := { h with q := withType g h.q }

omit hg in
theorem retype_answers {env : Env} {opts : MatchOpts} {limit : ℕ} {h : Hit} :
    (retypeHit g h).Answers env opts limit ↔ h.Answers env opts limit := by
  unfold Hit.Answers retypeHit
  simp only [query_retype]
  exact Iff.rfl

omit hg in
theorem retype_first {env : Env} {opts : MatchOpts} {h : Hit} :
    (retypeHit g h).FirstAnswer env opts ↔ h.FirstAnswer env opts := by
  unfold Hit.FirstAnswer retypeHit
  simp only [query_retype]
  exact Iff.rfl

omit hg in
theorem retype_pullHits {hs' : List Hit} (hq : ∀ h ∈ hs', h.q ∈ pms.map (withType g)) :
    ∃ hs : List Hit, hs.map (retypeHit g) = hs' ∧ ∀ h ∈ hs, h.q ∈ pms := by
  induction hs' with
  | nil => exact ⟨[], rfl, by simp⟩
  | cons h' t ih =>
    obtain ⟨hs, h1, h2⟩ := ih fun q h => hq q (List.mem_cons_of_mem _ h)
    obtain ⟨q, h3, h4⟩ := List.mem_map.1 (hq h' List.mem_cons_self)
    refine ⟨⟨q, h'.kg, h'.grid⟩ :: hs, ?_, List.forall_mem_cons.2 ⟨h3, h2⟩⟩
    rw [List.map_cons, h1]
    congr 1
    unfold retypeHit
    rw [h4]

theorem retype_lone {hs : List Hit} (hq : ∀ h ∈ hs, h.q ∈ pms) :
    Lone (pms.map (withType g)) (hs.map (retypeHit g)) ↔ Lone pms hs := by
  constructor
  · rintro ⟨h', e, hx⟩
    obtain ⟨h, rfl, rfl⟩ := List.map_eq_singleton_iff.1 e
    exact ⟨h, rfl, fun hy => hx ((retype_extendable hg (qs := [h.q]) (by simpa using hq)).2 hy)⟩
  · rintro ⟨h, rfl, hx⟩
    exact ⟨retypeHit g h, rfl,
      fun hy => hx ((retype_extendable hg (qs := [h.q]) (by simpa using hq)).1 hy)⟩

theorem retype_loses {hs : List Hit} (hq : ∀ h ∈ hs, h.q ∈ pms) :
    LosesPoints (pms.map (withType g)) (hs.map (retypeHit g)) ↔ LosesPoints pms hs := by
  constructor
  · rintro (⟨h', e, hx⟩ | ⟨a', u', l', e, hlt⟩)
    · obtain ⟨h, rfl, rfl⟩ := List.map_eq_singleton_iff.1 e
      exact Or.inl ⟨h, rfl, (retype_extendable hg (qs := [h.q]) (by simpa using hq)).1 hx⟩
    · obtain ⟨a, b, rfl, rfl, e2⟩ := List.map_eq_append_iff.1 e
      obtain ⟨u, t, rfl, rfl, e3⟩ := List.map_eq_cons_iff.1 e2
      obtain ⟨l, t', rfl, rfl, e4⟩ := List.map_eq_cons_iff.1 e3
      rw [List.map_eq_nil_iff] at e4
      subst e4
      exact Or.inr ⟨a, u, l, rfl, hlt⟩
  · rintro (⟨h, rfl, hx⟩ | ⟨a, u, l, rfl, hlt⟩)
    · exact Or.inl ⟨retypeHit g h, rfl,
        (retype_extendable hg (qs := [h.q]) (by simpa using hq)).2 hx⟩
    · exact Or.inr ⟨a.map (retypeHit g), retypeHit g u, retypeHit g l, by simp,hlt⟩

omit hg in
theorem retype_keys {a b : List Subquery} :
    groupKeys (a.map (withType g)) = groupKeys (b.map (withType g)) ↔
      groupKeys a = groupKeys b := by
  unfold groupKeys
  rw [List.map_map, List.map_map]
  rfl

theorem retype_few {n : ℕ} (h : FewGroupStacks n pms) :
    FewGroupStacks n (pms.map (withType g)) := by
  intro l' h1 h2
  obtain ⟨l, rfl, hl⟩ := retype_pullStacks fun qs hqs => (h2 qs hqs).2.1.mem
  rw [List.length_map]
  refine h l ?_ fun qs hqs => ?_
  · rw [List.map_map] at h1
    exact nodup_map_of h1 fun a ha b hb e => retype_keys.2 e
  · obtain ⟨a1, a2, a3⟩ := h2 _ (List.mem_map_of_mem hqs)
    exact ⟨fun e => a1 (by rw [e]; rfl), (retype_isStack hg (hl qs hqs)).1 a2,
      fun hx => a3 ((retype_extendable hg (hl qs hqs)).2 hx)⟩

theorem retype_room (h : RoomForGroups pms) : RoomForGroups (pms.map (withType g)) := by
  intro l' h1 h2
  obtain ⟨l, rfl, hl⟩ := retype_pullStacks fun qs hqs => (h2 qs hqs).2.mem
  have hr : RoomFor (lastScans l) := by
    refine h l ?_ fun qs hqs => ?_
    · rw [List.map_map] at h1
      refine nodup_map_of h1 fun a ha b hb e => ?_
      obtain ⟨e1, e2⟩ := Prod.mk.injEq .. ▸ e
      simp only [Function.comp, List.getLast?_map, retype_keys.2 e1, e2]
    · obtain ⟨a1, a2⟩ := h2 _ (List.mem_map_of_mem hqs)
      exact ⟨fun e => a1 (by rw [e]; rfl), (retype_isStack hg (hl qs hqs)).1 a2⟩
  have e : lastScans (l.map (List.map (withType g))) =
      (lastScans l).map fun s => (withType g s.1, s.2) := by
    unfold lastScans
    rw [List.flatMap_map, List.map_flatMap]
    congr 1
    funext qs
    rw [List.getLast?_map]
    cases qs.getLast? with
    | none => rfl
    | some q => simp [withType]
  rw [e]
  refine ⟨?_, AtMost.map hr.letters ?_, AtMost.map hr.words ?_, AtMost.map hr.ranges ?_,
    AtMost.map hr.highs fun _ _ h => h⟩
  · intro s' hs' hw ho
    obtain ⟨s, hs, rfl⟩ := List.mem_map.1 hs'
    exact hr.worth s hs hw ho
  · rintro s hs ⟨a, b, c⟩
    exact ⟨a, b, c⟩
  · rintro s hs ⟨a, b⟩
    exact ⟨a, b⟩
  · rintro s hs ⟨a, b⟩
    exact ⟨a, b⟩

variable {env : Env} {opts : MatchOpts}

theorem retype_contextOf {hs : List Hit} (hq : ∀ h ∈ hs, h.q ∈ pms) {c : Context} :
    ContextOf env opts (pms.map (withType g)) (hs.map (retypeHit g)) c ↔
      ContextOf env opts pms hs c := by
  have hmapq : (hs.map (retypeHit g)).map Hit.q = (hs.map Hit.q).map (withType g) := by
    rw [List.map_map, List.map_map]; rfl
  have hrel : (hs.map (retypeHit g)).map Hit.relev = hs.map Hit.relev := by
    rw [List.map_map]; rfl
  have hmask : (hs.map (retypeHit g)).map (·.q.mask) = hs.map (·.q.mask) := by
    rw [List.map_map]; rfl
  have hqm : ∀ q ∈ hs.map Hit.q, q ∈ pms := by
    intro q hq'
    obtain ⟨x, hx, rfl⟩ := List.mem_map.1 hq'
    exact hq x hx
  have hent : List.Forall₂ (fun h e => MadeFrom h.q h.grid e ∧ e.phrasematchId = h.kg.id)
      (hs.map (retypeHit g)).reverse c.entries ↔
      List.Forall₂ (fun h e => MadeFrom h.q h.grid e ∧ e.phrasematchId = h.kg.id) hs.reverse
        c.entries := by
    rw [← List.map_reverse, List.forall₂_map_left_iff]
    rfl
  constructor
  · intro h
    have hst := h.stack
    rw [hmapq] at hst
    refine ⟨by simpa using h.ne, (retype_isStack hg hqm).1 hst, ?_, hent.1 h.entries,
      (List.isChain_map (retypeHit g)).1 h.tiles, by rw [h.mask, hmask], ?_, ?_, ?_⟩
    · intro x hx limit h3 h4
      rw [← retype_lone hg hq] at h3 h4
      exact retype_answers.1 (h.answers (retypeHit g x) (List.mem_map_of_mem hx) limit h3 h4)
    · intro hn
      rw [← retype_loses hg hq] at hn
      rw [h.plain hn, hrel]
    · intro hn
      rw [← retype_loses hg hq] at hn
      rw [h.penalty hn, hrel]
    · intro hn x hx
      rw [← retype_lone hg hq] at hn
      exact retype_first.1 (h.first hn (retypeHit g x) (List.mem_map_of_mem hx))
  · intro h
    refine ⟨by simpa using h.ne, ?_, ?_, hent.2 h.entries,
      (List.isChain_map (retypeHit g)).2 h.tiles, by rw [h.mask, hmask], ?_, ?_, ?_⟩
    · rw [hmapq]
      exact (retype_isStack hg hqm).2 h.stack
    · intro x hx limit h3 h4
      obtain ⟨x, hx', rfl⟩ := List.mem_map.1 hx
      rw [retype_lone hg hq] at h3 h4
      exact retype_answers.2 (h.answers x hx' limit h3 h4)
    · intro hn
      rw [retype_loses hg hq] at hn
      rw [hrel, h.plain hn]
    · intro hn
      rw [retype_loses hg hq] at hn
      rw [hrel, h.penalty hn]
    · intro hn x hx
      obtain ⟨x, hx', rfl⟩ := List.mem_map.1 hx
      rw [retype_lone hg hq] at hn
      exact retype_first.2 (h.first hn x hx')

omit hg in
theorem retype_over {above : List Subquery} {hs : List Hit} (hq : ∀ h ∈ hs, h.q ∈ pms) :
    HitsOver env opts (pms.map (withType g)) (above.map (withType g))
      (hs.map (retypeHit g)) ↔ HitsOver env opts pms above hs := by
  have hmapq : (hs.map (retypeHit g)).map Hit.q = (hs.map Hit.q).map (withType g) := by
    rw [List.map_map, List.map_map]; rfl
  constructor
  · intro h
    refine ⟨?_, hq, fun x hx => retype_first.1 (h.answers (retypeHit g x) (List.mem_map_of_mem hx)),
      (List.isChain_map (retypeHit g)).1 h.tiles⟩
    have := h.keys
    rw [hmapq] at this
    exact retype_keys.1 this
  · intro h
    refine ⟨?_, ?_, ?_, (List.isChain_map (retypeHit g)).2 h.tiles⟩
    · rw [hmapq]
      exact retype_keys.2 h.keys
    · intro x hx
      obtain ⟨x, hx', rfl⟩ := List.mem_map.1 hx
      exact List.mem_map_of_mem (hq x hx')
    · intro x hx
      obtain ⟨x, hx', rfl⟩ := List.mem_map.1 hx
      exact retype_first.2 (h.answers x hx')

omit hg in
theorem retype_notCut {qs : List Subquery} :
    NotCut env opts (pms.map (withType g)) (qs.map (withType g)) ↔
      NotCut env opts pms qs := by
  constructor
  · intro h above q below e hne
    subst e
    obtain ⟨tops, last, h1, h2⟩ := h (above.map (withType g)) (withType g q)
      (below.map (withType g)) (by simp) (by simpa using hne)
    obtain ⟨hs, h3, h4⟩ := retype_pullHits h1.mem
    rw [← h3] at h1
    obtain ⟨tops, l, rfl, rfl, h5⟩ := List.map_eq_append_iff.1 h3
    obtain ⟨last, rfl, rfl⟩ := List.map_eq_singleton_iff.1 h5
    exact ⟨tops, last, (retype_over h4).1 h1, h2⟩
  · intro h above' q' below' e hne
    obtain ⟨above, rest, rfl, rfl, hrest⟩ := List.map_eq_append_iff.1 e
    obtain ⟨q, below, rfl, rfl, rfl⟩ := List.map_eq_cons_iff.1 hrest
    obtain ⟨tops, last, h1, h2⟩ := h above q below rfl (by simpa using hne)
    refine ⟨tops.map (retypeHit g), retypeHit g last, ?_, h2⟩
    have := (retype_over (g := g) h1.mem).2 h1
    rwa [List.map_append] at this

theorem retype_loneResult {c : Context} :
    LoneResult env opts (pms.map (withType g)) c ↔ LoneResult env opts pms c := by
  constructor
  · rintro ⟨q', kg, o, grids, all, h1, h2, h3, h4, h5, h6, h7⟩
    obtain ⟨q, hqm, rfl⟩ := List.mem_map.1 (h1.mem q' (by simp))
    have hq : ∀ a ∈ [q], a ∈ pms := by simpa using hqm
    exact ⟨q, kg, o, grids, all, (retype_isStack hg hq).1 h1,
      fun hx => h2 ((retype_extendable hg hq).2 hx), h3, h4, by rwa [query_retype] at h5, h6, h7⟩
  · rintro ⟨q, kg, o, grids, all, h1, h2, h3, h4, h5, h6, h7⟩
    have hq : ∀ a ∈ [q], a ∈ pms := h1.mem
    exact ⟨withType g q, kg, o, grids, all, (retype_isStack hg hq).2 h1,
      fun hx => h2 ((retype_extendable hg hq).1 hx), h3, h4, by rwa [query_retype], h6, h7⟩

theorem retype_returned {c : Context} :
    IsReturned env opts (pms.map (withType g)) c ↔ IsReturned env opts pms c := by
  refine or_congr ?_ (retype_loneResult hg)
  constructor
  · rintro ⟨hs', h1, h2, h3⟩
    obtain ⟨hs, rfl, hq⟩ := retype_pullHits (g := g) (pms := pms) (hs' := hs')
      fun x hx => h3.stack.mem _ (List.mem_map_of_mem hx)
    refine ⟨hs, fun hl => h1 ((retype_lone hg hq).2 hl), ?_, (retype_contextOf hg hq).1 h3⟩
    refine (retype_notCut (g := g)).1 ?_
    rw [List.map_map] at h2 ⊢
    exact h2
  · rintro ⟨hs, h1, h2, h3⟩
    have hq : ∀ h ∈ hs, h.q ∈ pms := fun x hx => h3.stack.mem _ (List.mem_map_of_mem hx)
    refine ⟨hs.map (retypeHit g), fun hl => h1 ((retype_lone hg hq).1 hl), ?_,
      (retype_contextOf hg hq).2 h3⟩
    have := (retype_notCut (g := g) (env := env) (opts := opts) (pms := pms)).2 h2
    rw [List.map_map] at this ⊢
    exact this

omit hg in
theorem retype_delivered (h : Delivered pms) : Delivered (pms.map (withType g)) := by
  refine ⟨?_, ?_, ?_⟩
  · intro q hq
    obtain ⟨q, hq', rfl⟩ := List.mem_map.1 hq
    exact h.one q hq'
  · rw [List.flatMap_map]
    exact h.ids
  · intro a ha b hb e
    obtain ⟨a, ha', rfl⟩ := List.mem_map.1 ha
    obtain ⟨b, hb', rfl⟩ := List.mem_map.1 hb
    obtain ⟨h1, h2⟩ := h.index a ha' b hb' e
    refine ⟨?_, h2⟩
    unfold withType
    simp only [h1]

theorem retype_zooms (h : ZoomsAscend pms) : ZoomsAscend (pms.map (withType g)) := by
  intro a ha b hb hlt
  obtain ⟨a, ha', rfl⟩ := List.mem_map.1 ha
  obtain ⟨b, hb', rfl⟩ := List.mem_map.1 hb
  exact h a ha' b hb' ((hg a ha' b hb').1 hlt)

end

/-- **C106**: only the order of the types of the indexes matters: with other types in the same order,
exactly the same contexts are returned. -/
theorem C106_same {env env' : TreeEnv} (henv : env.toEnv = env'.toEnv) {g : ℕ → ℕ}
    {qs : List Subquery} {opts : MatchOpts} (hg : SameTypeOrder g qs) (hd : Delivered qs)
    (hfew : FewGroupStacks 2000 qs) (hz : env.chk = true ∨ ZoomsAscend qs)
    (hroom : RoomForGroups qs) {out out' : List Context}
    (hout : stackAndCoalesce env qs opts = some out)
    (hout' : stackAndCoalesce env' (qs.map (withType g)) opts = some out')
    (hlen : Short out) (hlen' : Short out') (c : Context) : c ∈ out' ↔ c ∈ out := by
  have hz' : env'.chk = true ∨ ZoomsAscend (qs.map (withType g)) := by
    rw [← show env.chk = env'.chk from congrArg Env.chk henv]
    exact hz.imp_right (retype_zooms hg)
  constructor
  · intro hc
    have := C91_sound (retype_delivered hd) (retype_few hg hfew) hz' hout' c hc
    rw [← henv] at this
    exact C91_complete hd hfew hz hroom hout hlen c ((retype_returned hg).1 this)
  · intro hc
    refine C91_complete (retype_delivered hd) (retype_few hg hfew) hz' (retype_room hg hroom) hout'
      hlen' c ?_
    rw [← henv]
    exact (retype_returned hg).2 (C91_sound hd hfew hz hout c hc)

/-- **C106**: `coalesce`, which is given one stack, returns the same whatever the types are. -/
theorem C106_coalesce (env : Env) (os : ℕ → IterOrder) (g : ℕ → ℕ) (stack : List Subquery)
    (opts : MatchOpts) :
    coalesce env os (stack.map (withType g)) opts = coalesce env os stack opts := by
  refine (coalesce_alike ?_ os opts).symm
  rw [List.forall₂_map_right_iff]
  refine List.forall₂_same.2 fun q _ => ⟨rfl, rfl, ?_⟩
  change Option.Rel _ q.matchKeys.head? q.matchKeys.head?
  cases q.matchKeys.head? with
  | none => exact .none
  | some k => exact .some fun o n => (query_retype env g q k.key o n).symm

/-! ## Examples -/

example : SameTypeOrder (fun t => 100 * t + 7) growthMatches ∧ ∃ out out',
    stackAndCoalesce (listTreeEnv false) growthMatches plainOpts = some out ∧
    stackAndCoalesce (listTreeEnv false) (growthMatches.map (withType fun t => 100 * t + 7))
      plainOpts = some out' ∧ (∃ c ∈ out, c.entries.length = 2) ∧ ∀ c, c ∈ out' ↔ c ∈ out := by
  have hg : SameTypeOrder (fun t => 100 * t + 7) growthMatches := by
    unfold SameTypeOrder
    decide +kernel
  have h1 : (stackAndCoalesce (listTreeEnv false) growthMatches plainOpts).map
      (fun out => decide (out.length < 40 ∧ ∃ c ∈ out, c.entries.length = 2)) = some true := by
    decide +kernel
  have h2 : (stackAndCoalesce (listTreeEnv false) (growthMatches.map (withType fun t => 100 * t + 7))
      plainOpts).map (fun out => decide (out.length < 40)) = some true := by
    decide +kernel
  obtain ⟨out, h1, h3⟩ := Option.map_eq_some_iff.1 h1
  obtain ⟨out', h2, h4⟩ := Option.map_eq_some_iff.1 h2
  obtain ⟨h3, h5⟩ := of_decide_eq_true h3
  have h4 := of_decide_eq_true h4
  have hd : Delivered growthMatches := ⟨by decide +kernel, by decide +kernel, by decide +kernel⟩
  have hroom : RoomForGroups growthMatches :=
    room_of_small (by decide +kernel) (by decide +kernel) (by
      intro q hq kg hk
      simp only [growthMatches, List.mem_cons, List.not_mem_nil, or_false] at hq
      rcases hq with rfl | rfl <;> exact ⟨_, by rw [List.mem_singleton.1 hk]⟩)
  have hz : ZoomsAscend growthMatches := by
    unfold ZoomsAscend
    decide +kernel
  have hfew : FewGroupStacks 2000 growthMatches := few_of_small (by decide +kernel)
  exact ⟨hg, out, out', h1, h2, h5,
    C106_same rfl hg hd hfew (.inr hz) hroom h1 h2 (short_of_few h3) (short_of_few h4)⟩

/-- With equal types they are not stacked: it is not enough that types are not turned around. -/
theorem C106_equal_types : ∃ out out',
    stackAndCoalesce (listTreeEnv false) growthMatches plainOpts = some out ∧
    stackAndCoalesce (listTreeEnv false) (growthMatches.map (withType fun _ => 1)) plainOpts =
      some out' ∧ (∃ c ∈ out, c.entries.length = 2) ∧ ∀ c ∈ out', c.entries.length ≠ 2 := by
  have h : ((stackAndCoalesce (listTreeEnv false) growthMatches plainOpts).bind fun out =>
      (stackAndCoalesce (listTreeEnv false) (growthMatches.map (withType fun _ => 1))
        plainOpts).map fun out' => decide ((∃ c ∈ out, c.entries.length = 2) ∧
          ∀ c ∈ out', c.entries.length ≠ 2)) = some true := by decide +kernel
  obtain ⟨out, h1, h⟩ := Option.bind_eq_some_iff.1 h
  obtain ⟨out', h2, h⟩ := Option.map_eq_some_iff.1 h
  exact ⟨out, out', h1, h2, of_decide_eq_true h⟩

end Carmen
