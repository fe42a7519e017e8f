import Verif.Spec.Renumber
import Verif.Props.Share
import Verif.Props.Wider
import Verif.Lemmas.MovedHits
import Mathlib.Logic.Equiv.Basic

/-!
# C104: other numbers for indexes and match keys
-/

namespace Carmen
open Spec

/-! ## Stacks -/

section
variable {r : Renumbering} {pms : List Subquery} (hk : r.Ok)
include hk

theorem relabel_isStack {qs : List Subquery} (hq : ∀ q ∈ qs, q ∈ pms) :
    IsStack (pms.map (r.phrasematch)) (qs.map (r.phrasematch)) ↔ IsStack pms qs := by
  have hn : ∀ a b : Subquery, (r.phrasematch a).idx ∉ (r.phrasematch b).nonOverlapping ↔
      a.idx ∉ b.nonOverlapping := fun a b => not_congr (List.mem_map_of_injective hk.idx)
  have hr : ∀ b : Subquery, 129 ∉ (r.phrasematch b).nonOverlapping ↔ 129 ∉ b.nonOverlapping := by
    intro b
    have := List.mem_map_of_injective hk.idx (a := 129) (l := b.nonOverlapping)
    rw [hk.root] at this
    exact not_congr this
  constructor
  · intro h
    refine ⟨hq, (List.pairwise_map (f := r.phrasematch)).1 h.types, (List.pairwise_map (f := r.phrasematch)).1 h.masks,
      ((List.isChain_map r.phrasematch).1 h.neighbours).imp fun {a b} e => (hn a b).1 e, ?_⟩
    intro q hq'
    exact (hr q).1 (h.root (r.phrasematch q) (by rw [List.head?_map, Option.mem_def.1 hq']; rfl))
  · intro h
    refine ⟨?_, List.pairwise_map.2 h.types, List.pairwise_map.2 h.masks,
      (List.isChain_map _).2 (h.neighbours.imp fun {a b} e => (hn a b).2 e), ?_⟩
    · intro q hq'
      obtain ⟨a, ha, rfl⟩ := List.mem_map.1 hq'
      exact List.mem_map_of_mem (hq a ha)
    · intro q hq'
      rw [List.head?_map, Option.mem_def, Option.map_eq_some_iff] at hq'
      obtain ⟨a, ha, rfl⟩ := hq'
      exact (hr a).2 (h.root a ha)

omit hk in
theorem relabel_pull {qs' : List Subquery} (hq : ∀ q ∈ qs', q ∈ pms.map (r.phrasematch)) :
    ∃ qs : List Subquery, qs.map (r.phrasematch) = qs' ∧ ∀ q ∈ qs, q ∈ pms := by
  induction qs' with
  | nil => exact ⟨[], rfl, by simp⟩
  | cons q' t ih =>
    obtain ⟨qs, h1, h2⟩ := ih fun q h => hq q (List.mem_cons_of_mem _ h)
    obtain ⟨q, h3, rfl⟩ := List.mem_map.1 (hq q' List.mem_cons_self)
    exact ⟨q :: qs, by rw [List.map_cons, h1], List.forall_mem_cons.2 ⟨h3, h2⟩⟩

omit hk in
theorem relabel_pullStacks {l' : List (List Subquery)}
    (h : ∀ qs ∈ l', ∀ q ∈ qs, q ∈ pms.map (r.phrasematch)) :
    ∃ l : List (List Subquery), l.map (List.map (r.phrasematch)) = l' ∧
      ∀ qs ∈ l, ∀ q ∈ qs, q ∈ pms := by
  induction l' with
  | nil => exact ⟨[], rfl, by simp⟩
  | cons qs' t ih =>
    obtain ⟨l, h1, h2⟩ := ih fun q h' => h q (List.mem_cons_of_mem _ h')
    obtain ⟨qs, h3, h4⟩ := relabel_pull (h qs' List.mem_cons_self)
    exact ⟨qs :: l, by rw [List.map_cons, h1, h3], List.forall_mem_cons.2 ⟨h4, h2⟩⟩

theorem relabel_extendable {qs : List Subquery} (hq : ∀ q ∈ qs, q ∈ pms) :
    Extendable (pms.map (r.phrasematch)) (qs.map (r.phrasematch)) ↔ Extendable pms qs := by
  constructor
  · rintro ⟨q', h⟩
    obtain ⟨q, h1, rfl⟩ := List.mem_map.1 (h.mem q' (by simp))
    refine ⟨q, (relabel_isStack hk ?_).1 (by rwa [List.map_append])⟩
    intro a ha
    rcases List.mem_append.1 ha with ha | ha
    · exact hq a ha
    · rw [List.mem_singleton.1 ha]; exact h1
  · rintro ⟨q, h⟩
    refine ⟨r.phrasematch q, ?_⟩
    have := (relabel_isStack hk h.mem).2 h
    rwa [List.map_append] at this

/-- The hit with the other numbers. -/
def renumberHit (r : Renumbering) (h : Hit) : Hit := ⟨r.phrasematch h.q, r.key h.kg, h.grid⟩

omit hk in
theorem relabel_pullHits {hs' : List Hit}
    (hq : ∀ h ∈ hs', h.q ∈ pms.map r.phrasematch ∧ h.kg ∈ h.q.matchKeys) :
    ∃ hs : List Hit, hs.map (renumberHit r) = hs' ∧ ∀ h ∈ hs, h.q ∈ pms ∧ h.kg ∈ h.q.matchKeys := by
  induction hs' with
  | nil => exact ⟨[], rfl, by simp⟩
  | cons h' t ih =>
    obtain ⟨hs, h1, h2⟩ := ih fun q h => hq q (List.mem_cons_of_mem _ h)
    obtain ⟨g1, g2⟩ := hq h' List.mem_cons_self
    obtain ⟨q, h3, h4⟩ := List.mem_map.1 g1
    rw [← h4] at g2
    obtain ⟨kg, h5, h6⟩ := List.mem_map.1 g2
    refine ⟨⟨q, kg, h'.grid⟩ :: hs, ?_, List.forall_mem_cons.2 ⟨⟨h3, h5⟩, h2⟩⟩
    rw [List.map_cons, h1]
    congr 1
    unfold renumberHit
    simp only
    rw [h4, h6]

theorem relabel_key_mem {kg : KeyWithId} {q : Subquery} :
    r.key kg ∈ (r.phrasematch q).matchKeys ↔ kg ∈ q.matchKeys := by
  refine List.mem_map_of_injective fun a b e => ?_
  cases a
  cases b
  simp only [Renumbering.key, KeyWithId.mk.injEq] at e ⊢
  exact ⟨e.1, e.2.1, hk.id e.2.2.1, e.2.2.2⟩

theorem relabel_answers {env : Env} {opts : MatchOpts} {limit : ℕ} {h : Hit} :
    (renumberHit r h).Answers env opts limit ↔ h.Answers env opts limit :=
  and_congr_left' (relabel_key_mem hk)

theorem relabel_first {env : Env} {opts : MatchOpts} {h : Hit} :
    (renumberHit r h).FirstAnswer env opts ↔ h.FirstAnswer env opts :=
  and_congr_left' (relabel_key_mem hk)

theorem relabel_lone {hs : List Hit} (hq : ∀ h ∈ hs, h.q ∈ pms) :
    Lone (pms.map (r.phrasematch)) (hs.map (renumberHit r)) ↔ Lone pms hs := by
  constructor
  · rintro ⟨h', e, hx⟩
    obtain ⟨h, rfl, rfl⟩ := List.map_eq_singleton_iff.1 e
    exact ⟨h, rfl, fun hy => hx ((relabel_extendable hk (qs := [h.q]) (by simpa using hq)).2 hy)⟩
  · rintro ⟨h, rfl, hx⟩
    exact ⟨renumberHit r h, rfl,
      fun hy => hx ((relabel_extendable hk (qs := [h.q]) (by simpa using hq)).1 hy)⟩

theorem relabel_loses {hs : List Hit} (hq : ∀ h ∈ hs, h.q ∈ pms) :
    LosesPoints (pms.map (r.phrasematch)) (hs.map (renumberHit r)) ↔ LosesPoints pms hs := by
  constructor
  · rintro (⟨h', e, hx⟩ | ⟨a', u', l', e, hlt⟩)
    · obtain ⟨h, rfl, rfl⟩ := List.map_eq_singleton_iff.1 e
      exact Or.inl ⟨h, rfl, (relabel_extendable hk (qs := [h.q]) (by simpa using hq)).1 hx⟩
    · obtain ⟨a, b, rfl, rfl, e2⟩ := List.map_eq_append_iff.1 e
      obtain ⟨u, t, rfl, rfl, e3⟩ := List.map_eq_cons_iff.1 e2
      obtain ⟨l, t', rfl, rfl, e4⟩ := List.map_eq_cons_iff.1 e3
      rw [List.map_eq_nil_iff] at e4
      subst e4
      exact Or.inr ⟨a, u, l, rfl, hlt⟩
  · rintro (⟨h, rfl, hx⟩ | ⟨a, u, l, rfl, hlt⟩)
    · exact Or.inl ⟨renumberHit r h, rfl,
        (relabel_extendable hk (qs := [h.q]) (by simpa using hq)).2 hx⟩
    · exact Or.inr ⟨a.map (renumberHit r), renumberHit r u, renumberHit r l, by simp,hlt⟩

theorem relabel_keys {a b : List Subquery} :
    groupKeys (a.map (r.phrasematch)) = groupKeys (b.map (r.phrasematch)) ↔
      groupKeys a = groupKeys b := by
  unfold groupKeys
  induction a generalizing b with
  | nil => cases b <;> simp
  | cons x a ih =>
    cases b with
    | nil => simp
    | cons y b =>
      have ih := ih (b := b)
      simp only [List.map_cons, List.cons.injEq, Prod.mk.injEq, ih, Renumbering.phrasematch,
        hk.idx.eq_iff]

theorem relabel_few {n : ℕ} (h : FewGroupStacks n pms) :
    FewGroupStacks n (pms.map (r.phrasematch)) := by
  intro l' h1 h2
  obtain ⟨l, rfl, hl⟩ := relabel_pullStacks fun qs hqs => (h2 qs hqs).2.1.mem
  rw [List.length_map]
  refine h l ?_ fun qs hqs => ?_
  · rw [List.map_map] at h1
    exact nodup_map_of h1 fun a ha b hb e => (relabel_keys hk).2 e
  · obtain ⟨a1, a2, a3⟩ := h2 _ (List.mem_map_of_mem hqs)
    exact ⟨fun e => a1 (by rw [e]; rfl), (relabel_isStack hk (hl qs hqs)).1 a2,
      fun hx => a3 ((relabel_extendable hk (hl qs hqs)).2 hx)⟩

theorem relabel_room (h : RoomForGroups pms) : RoomForGroups (pms.map (r.phrasematch)) := by
  intro l' h1 h2
  obtain ⟨l, rfl, hl⟩ := relabel_pullStacks fun qs hqs => (h2 qs hqs).2.mem
  have hr : RoomFor (lastScans l) := by
    refine h l ?_ fun qs hqs => ?_
    · rw [List.map_map] at h1
      refine nodup_map_of h1 fun a ha b hb e => ?_
      obtain ⟨e1, e2⟩ := Prod.mk.injEq .. ▸ e
      simp only [Function.comp, List.getLast?_map, (relabel_keys hk).2 e1, e2]
    · obtain ⟨a1, a2⟩ := h2 _ (List.mem_map_of_mem hqs)
      exact ⟨fun e => a1 (by rw [e]; rfl), (relabel_isStack hk (hl qs hqs)).1 a2⟩
  have e : lastScans (l.map (List.map (r.phrasematch))) =
      (lastScans l).map fun s => (r.phrasematch s.1, r.key s.2) := by
    unfold lastScans
    rw [List.flatMap_map, List.map_flatMap]
    congr 1
    funext qs
    rw [List.getLast?_map]
    cases qs.getLast? with
    | none => rfl
    | some q => simp [Renumbering.phrasematch]
  rw [e]
  refine ⟨?_, AtMost.map hr.letters ?_, AtMost.map hr.words ?_, AtMost.map hr.ranges ?_,
    AtMost.map hr.highs fun _ _ h => h⟩
  · intro s' hs' hw ho
    obtain ⟨s, hs, rfl⟩ := List.mem_map.1 hs'
    exact hr.worth s hs hw ho
  · rintro s hs ⟨a, b, c⟩
    exact ⟨a, b, c⟩
  · rintro s hs ⟨a, b⟩
    exact ⟨a, b⟩
  · rintro s hs ⟨a, b⟩
    exact ⟨a, b⟩

end

/-! ## Phrase matches that stand alone -/

/-- The state of the loop with the other numbers. -/
def renumberState (r : Renumbering) (s : SingleState) : SingleState :=
  { s with coalesced := s.coalesced.map fun p => (p.1, r.entry p.2) }

theorem relabel_upsert (r : Renumbering) (e : CoalesceEntry) (m : HMap ℕ CoalesceEntry) :
    HMap.upsert e.entry.id (r.entry e) (betterOf (r.entry e))
      (m.map fun p => (p.1, r.entry p.2)) =
    (HMap.upsert e.entry.id e (betterOf e) m).map fun p => (p.1, r.entry p.2) := by
  have hb : ∀ a b, betterOf (r.entry a) (r.entry b) = r.entry (betterOf a b) := by
    intro a b
    unfold betterOf
    rw [apply_ite (r.entry)]
    rfl
  induction m with
  | nil => simp only [List.map_nil, HMap.upsert, List.map_cons, hb]
  | cons p t ih =>
    simp only [List.map_cons, HMap.upsert]
    split_ifs
    · simp only [List.map_cons, hb]
    · simp only [List.map_cons, ih]

theorem relabel_loop (r : Renumbering) {mk mk' : MatchEntry → Option CoalesceEntry}
    (hmk : ∀ g, mk' g = (mk g).map (r.entry)) (noProx : Bool) (grids : List MatchEntry)
    (s : SingleState) :
    singleLoop mk' noProx (renumberState r s) grids =
      (singleLoop mk noProx s grids).map (renumberState r) := by
  induction grids generalizing s with
  | nil => rfl
  | cons g t ih =>
    unfold singleLoop
    rw [hmk]
    cases mk g with
    | none => rfl
    | some e =>
      have hmove : singleMove noProx (renumberState r s) (r.entry e) = singleMove noProx s e := rfl
      have hrec : (renumberState r s).record (r.entry e) = renumberState r (s.record e) := by
        unfold SingleState.record renumberState
        congr 1
        exact relabel_upsert r e s.coalesced
      simp only [Option.map_some, Option.bind_eq_bind, Option.bind_some, hmove, hrec]
      cases singleMove noProx s e <;> simp [ih]

theorem relabel_mkEntry (r : Renumbering) (o : MatchOpts) (q : Subquery) (id : ℕ) (g : MatchEntry) :
    mkEntry false o (r.phrasematch q) (r.id id) g = (mkEntry false o q id g).map r.entry := by
  unfold mkEntry
  simp only [Bool.false_and, Bool.false_eq_true, if_false, Option.map_some, Option.some.injEq]
  simp only [toEntry, Renumbering.entry, Renumbering.phrasematch, CoalesceEntry.mk.injEq, true_and,
    and_true]
  unfold tmpIdOf
  rw [Nat.mod_add_mod, Nat.shiftLeft_eq]

theorem relabel_single (r : Renumbering) {env : Env} (hchk : env.chk = false) (q : Subquery)
    (o : MatchOpts) (grids : List MatchEntry) (id : ℕ) :
    treeSingle env (r.phrasematch q) o grids (r.id id) =
      (treeSingle env q o grids id).map (List.map r.context) := by
  unfold treeSingle
  rw [hchk]
  have := relabel_loop r (mk := mkEntry false o q id)
    (mk' := mkEntry false o (r.phrasematch q) (r.id id)) (relabel_mkEntry r o q id)
    o.proximity.isNone grids SingleState.init
  change singleLoop _ _ SingleState.init _ = _ at this
  rw [this]
  cases singleLoop (mkEntry false o q id) o.proximity.isNone SingleState.init grids with
  | none => rfl
  | some s =>
    simp only [Option.map_some, Option.bind_eq_bind, Option.bind_some, singleById, renumberState]
    rw [← List.map_insertionSort (r := fun a b : ℕ × CoalesceEntry => a.1 ≤ b.1)
      (s := fun a b : ℕ × CoalesceEntry => a.1 ≤ b.1)
      (f := fun p : ℕ × CoalesceEntry => (p.1, r.entry p.2)) s.coalesced
      (fun a _ b _ => Iff.rfl), List.map_map, List.map_map]
    rfl

/-! ## Contexts -/

section
variable {r : Renumbering} {pms : List Subquery} (hk : r.Ok) {env : Env} {opts : MatchOpts}
include hk

omit hk in
theorem relabel_entries {hs : List Hit} {es : List CoalesceEntry}
    (h : List.Forall₂ (fun h e => MadeFrom h.q h.grid e ∧ e.phrasematchId = h.kg.id) hs es) :
    List.Forall₂ (fun h e => MadeFrom h.q h.grid e ∧ e.phrasematchId = h.kg.id)
      (hs.map (renumberHit r)) (es.map (r.entry)) := by
  rw [List.forall₂_map_left_iff, List.forall₂_map_right_iff]
  refine h.imp fun h e ⟨⟨h1, h2, h3, h4, h5, h6, h7, h8, h9, h10, h11, h12⟩, hid⟩ =>
    ⟨⟨h1, h2, h3, h4, h5, h6, h7, h8, h9, ?_, ?_, h12⟩, congrArg r.id hid⟩
  · unfold Renumbering.entry renumberHit Renumbering.phrasematch
    simp only
    rw [h11, h1]
  · exact congrArg r.idx h11

omit hk in
theorem relabel_entries_back {hs : List Hit} {es' : List CoalesceEntry}
    (h : List.Forall₂ (fun h e => MadeFrom h.q h.grid e ∧ e.phrasematchId = h.kg.id)
      (hs.map (renumberHit r)) es') :
    ∃ es : List CoalesceEntry, es.map (r.entry) = es' ∧
      List.Forall₂ (fun h e => MadeFrom h.q h.grid e ∧ e.phrasematchId = h.kg.id) hs es := by
  rw [List.forall₂_map_left_iff] at h
  induction h with
  | nil => exact ⟨[], rfl, .nil⟩
  | @cons a e' t t' h1 _ ih =>
    obtain ⟨es, h2, h3⟩ := ih
    obtain ⟨⟨g1, g2, g3, g4, g5, g6, g7, g8, g9, g10, g11, g12⟩, hid⟩ := h1
    refine ⟨{ e' with idx := a.q.idx, tmpId := (a.q.idx * 2 ^ 25 + a.grid.entry.id) % 2 ^ 32,
                      phrasematchId := a.kg.id } :: es, ?_,
      .cons ⟨⟨g1, g2, g3, g4, g5, g6, g7, g8, g9, rfl, rfl, g12⟩, rfl⟩ h3⟩
    rw [List.map_cons, h2]
    congr 1
    have i1 : e'.idx = r.idx a.q.idx := g11
    have i2 : e'.phrasematchId = r.id a.kg.id := hid
    have i3 : e'.tmpId = (r.idx a.q.idx * 2 ^ 25 + a.grid.entry.id) % 2 ^ 32 := g10
    have i4 : e'.entry.id = a.grid.entry.id := g1
    unfold Renumbering.entry
    simp only
    rw [← i1, ← i2, i4, i1, ← i3, ← i1]

theorem relabel_contextOf {hs : List Hit} (hq : ∀ h ∈ hs, h.q ∈ pms) {c : Context} :
    ContextOf env opts pms hs c →
      ContextOf env opts (pms.map (r.phrasematch)) (hs.map (renumberHit r)) (r.context c) := by
  intro h
  have hmapq : (hs.map (renumberHit r)).map Hit.q = (hs.map Hit.q).map (r.phrasematch) := by
    rw [List.map_map, List.map_map]; rfl
  have hrel : (hs.map (renumberHit r)).map Hit.relev = hs.map Hit.relev := by
    rw [List.map_map]; rfl
  have hqm : ∀ q ∈ hs.map Hit.q, q ∈ pms := by
    intro q hq'
    obtain ⟨x, hx, rfl⟩ := List.mem_map.1 hq'
    exact hq x hx
  refine ⟨by simpa using h.ne, ?_, ?_, ?_, (List.isChain_map (renumberHit r)).2 h.tiles, ?_, ?_, ?_, ?_⟩
  · rw [hmapq]
    exact (relabel_isStack hk hqm).2 h.stack
  · intro x hx limit h1 h2
    obtain ⟨x, hx', rfl⟩ := List.mem_map.1 hx
    rw [relabel_lone hk hq] at h1 h2
    exact (relabel_answers hk).2 (h.answers x hx' limit h1 h2)
  · rw [← List.map_reverse]
    exact relabel_entries h.entries
  · change c.mask = _
    rw [h.mask, List.map_map]
    rfl
  · intro hn
    rw [relabel_loses hk hq] at hn
    rw [hrel]
    exact h.plain hn
  · intro hn
    rw [relabel_loses hk hq] at hn
    rw [hrel]
    exact h.penalty hn
  · intro hn x hx
    obtain ⟨x, hx', rfl⟩ := List.mem_map.1 hx
    rw [relabel_lone hk hq] at hn
    exact (relabel_first hk).2 (h.first hn x hx')

theorem relabel_contextOf_back {hs : List Hit} (hq : ∀ h ∈ hs, h.q ∈ pms) {c' : Context}
    (h : ContextOf env opts (pms.map (r.phrasematch)) (hs.map (renumberHit r)) c') :
    ∃ c, c' = r.context c ∧ ContextOf env opts pms hs c := by
  have hmapq : (hs.map (renumberHit r)).map Hit.q = (hs.map Hit.q).map (r.phrasematch) := by
    rw [List.map_map, List.map_map]; rfl
  have hrel : (hs.map (renumberHit r)).map Hit.relev = hs.map Hit.relev := by
    rw [List.map_map]; rfl
  have hqm : ∀ q ∈ hs.map Hit.q, q ∈ pms := by
    intro q hq'
    obtain ⟨x, hx, rfl⟩ := List.mem_map.1 hq'
    exact hq x hx
  have hent := h.entries
  rw [← List.map_reverse] at hent
  obtain ⟨es, e1, e2⟩ := relabel_entries_back hent
  refine ⟨⟨unionMask (hs.map (·.q.mask)), c'.relev, es⟩, ?_, ?_, ?_, ?_, e2,
    (List.isChain_map (renumberHit r)).1 h.tiles, rfl, ?_, ?_, ?_⟩
  · have hm := h.mask
    rw [List.map_map] at hm
    unfold Renumbering.context
    rw [e1]
    cases c'
    simp only [Context.mk.injEq, and_true]
    exact hm
  · simpa using h.ne
  · have := h.stack
    rw [hmapq] at this
    exact (relabel_isStack hk hqm).1 this
  · intro x hx limit h1 h2
    rw [← relabel_lone hk hq] at h1 h2
    exact (relabel_answers hk).1 (h.answers (renumberHit r x) (List.mem_map_of_mem hx) limit h1 h2)
  · intro hn
    rw [← relabel_loses hk hq] at hn
    rw [← hrel]
    exact h.plain hn
  · intro hn
    rw [← relabel_loses hk hq] at hn
    rw [← hrel]
    exact h.penalty hn
  · intro hn x hx
    rw [← relabel_lone hk hq] at hn
    exact (relabel_first hk).1 (h.first hn (renumberHit r x) (List.mem_map_of_mem hx))

theorem relabel_over {above : List Subquery} {hs : List Hit}
    (hq : ∀ h ∈ hs, h.q ∈ pms) :
    HitsOver env opts (pms.map (r.phrasematch)) (above.map (r.phrasematch))
      (hs.map (renumberHit r)) ↔ HitsOver env opts pms above hs := by
  have hmapq : (hs.map (renumberHit r)).map Hit.q = (hs.map Hit.q).map (r.phrasematch) := by
    rw [List.map_map, List.map_map]; rfl
  have hqm : ∀ q ∈ hs.map Hit.q, q ∈ pms := by
    intro q hq'
    obtain ⟨x, hx, rfl⟩ := List.mem_map.1 hq'
    exact hq x hx
  constructor
  · intro h
    refine ⟨?_, hq, fun x hx =>
      (relabel_first hk).1 (h.answers (renumberHit r x) (List.mem_map_of_mem hx)),
      (List.isChain_map (renumberHit r)).1 h.tiles⟩
    have := h.keys
    rw [hmapq] at this
    exact (relabel_keys hk).1 this
  · intro h
    refine ⟨?_, ?_, ?_, (List.isChain_map (renumberHit r)).2 h.tiles⟩
    · rw [hmapq]
      exact (relabel_keys hk).2 h.keys
    · intro x hx
      obtain ⟨x, hx', rfl⟩ := List.mem_map.1 hx
      exact List.mem_map_of_mem (hq x hx')
    · intro x hx
      obtain ⟨x, hx', rfl⟩ := List.mem_map.1 hx
      exact (relabel_first hk).2 (h.answers x hx')

theorem relabel_notCut {qs : List Subquery} (hq : ∀ q ∈ qs, q ∈ pms) :
    NotCut env opts (pms.map (r.phrasematch)) (qs.map (r.phrasematch)) ↔ NotCut env opts pms qs := by
  constructor
  · intro h above q below e hne
    subst e
    obtain ⟨tops, last, h1, h2⟩ := h (above.map (r.phrasematch)) (r.phrasematch q)
      (below.map (r.phrasematch)) (by simp) (by simpa using hne)
    obtain ⟨hs, h3, h4⟩ := relabel_pullHits fun x hx => ⟨h1.mem x hx, (h1.answers x hx).1⟩
    rw [← h3] at h1
    obtain ⟨tops, l, rfl, rfl, h5⟩ := List.map_eq_append_iff.1 h3
    obtain ⟨last, rfl, rfl⟩ := List.map_eq_singleton_iff.1 h5
    exact ⟨tops, last, (relabel_over hk (fun x hx => (h4 x hx).1)).1 h1, h2⟩
  · intro h above' q' below' e hne
    obtain ⟨above, rest, rfl, rfl, hrest⟩ := List.map_eq_append_iff.1 e
    obtain ⟨q, below, rfl, rfl, rfl⟩ := List.map_eq_cons_iff.1 hrest
    obtain ⟨tops, last, h1, h2⟩ := h above q below rfl (by simpa using hne)
    refine ⟨tops.map (renumberHit r), renumberHit r last, ?_, h2⟩
    have := (relabel_over hk h1.mem).2 h1
    rwa [List.map_append] at this

theorem relabel_loneResult (hchk : env.chk = false) {c : Context} (h : LoneResult env opts pms c) :
    LoneResult env opts (pms.map (r.phrasematch)) (r.context c) := by
  obtain ⟨q, kg, o, grids, all, h1, h2, h3, h4, h5, h6, h7⟩ := h
  have hq : ∀ a ∈ [q], a ∈ pms := h1.mem
  refine ⟨r.phrasematch q, r.key kg, o, grids, all.map (r.context), (relabel_isStack hk hq).2 h1,
    fun hx => h2 ((relabel_extendable hk hq).1 hx), (relabel_key_mem hk).2 h3, h4, h5, ?_, List.mem_map_of_mem h7⟩
  change treeSingle env (r.phrasematch q) o grids (r.id kg.id) = _
  rw [relabel_single r hchk, h6]
  rfl

theorem relabel_loneResult_back (hchk : env.chk = false) {c' : Context}
    (h : LoneResult env opts (pms.map (r.phrasematch)) c') :
    ∃ c, c' = r.context c ∧ LoneResult env opts pms c := by
  obtain ⟨q', kg, o, grids, all', h1, h2, h3, h4, h5, h6, h7⟩ := h
  obtain ⟨q, hqm, rfl⟩ := List.mem_map.1 (h1.mem q' (by simp))
  have hq : ∀ a ∈ [q], a ∈ pms := by simpa using hqm
  obtain ⟨kg, h3', rfl⟩ := List.mem_map.1 h3
  change treeSingle env (r.phrasematch q) o grids (r.id kg.id) = _ at h6
  rw [relabel_single r hchk, Option.map_eq_some_iff] at h6
  obtain ⟨all, h6, rfl⟩ := h6
  obtain ⟨c, hc, rfl⟩ := List.mem_map.1 h7
  exact ⟨c, rfl, q, kg, o, grids, all, (relabel_isStack hk hq).1 h1,
    fun hx => h2 ((relabel_extendable hk hq).2 hx), h3', h4, h5, h6, hc⟩

theorem relabel_returned (hchk : env.chk = false) {c : Context} (h : IsReturned env opts pms c) :
    IsReturned env opts (pms.map (r.phrasematch)) (r.context c) := by
  rcases h with ⟨hs, h1, h2, h3⟩ | h
  · have hq : ∀ h ∈ hs, h.q ∈ pms := fun x hx => h3.stack.mem _ (List.mem_map_of_mem hx)
    refine Or.inl ⟨hs.map (renumberHit r), fun hl => h1 ((relabel_lone hk hq).1 hl), ?_,
      relabel_contextOf hk hq h3⟩
    have := (relabel_notCut hk (env := env) (opts := opts) h3.stack.mem).2 h2
    rw [List.map_map] at this ⊢
    exact this
  · exact Or.inr (relabel_loneResult hk hchk h)

theorem relabel_returned_back (hchk : env.chk = false) {c' : Context}
    (h : IsReturned env opts (pms.map (r.phrasematch)) c') :
    ∃ c, c' = r.context c ∧ IsReturned env opts pms c := by
  rcases h with ⟨hs', h1, h2, h3⟩ | h
  · obtain ⟨hs, rfl, hq⟩ := relabel_pullHits (r := r) (pms := pms) (hs' := hs')
      h3.keys
    have hq := fun x hx => (hq x hx).1
    obtain ⟨c, rfl, hc⟩ := relabel_contextOf_back hk hq h3
    refine ⟨c, rfl, Or.inl ⟨hs, fun hl => h1 ((relabel_lone hk hq).2 hl), ?_, hc⟩⟩
    refine (relabel_notCut hk (env := env) (opts := opts) hc.stack.mem).1 ?_
    rw [List.map_map] at h2 ⊢
    exact h2
  · obtain ⟨c, rfl, hc⟩ := relabel_loneResult_back hk hchk h
    exact ⟨c, rfl, Or.inr hc⟩

theorem relabel_delivered (h : Delivered pms) : Delivered (pms.map (r.phrasematch)) := by
  refine ⟨?_, ?_, ?_⟩
  · intro q hq
    obtain ⟨q, hq', rfl⟩ := List.mem_map.1 hq
    change (q.matchKeys.map r.key).length = 1
    rw [List.length_map]
    exact h.one q hq'
  · have e : ((pms.map r.phrasematch).flatMap fun q => q.matchKeys.map KeyWithId.id) =
        (pms.flatMap fun q => q.matchKeys.map KeyWithId.id).map r.id := by
      rw [List.flatMap_map, List.map_flatMap]
      congr 1
      funext q
      change (q.matchKeys.map r.key).map KeyWithId.id = _
      rw [List.map_map, List.map_map]
      rfl
    rw [e]
    exact h.ids.map hk.id
  · intro a ha b hb e
    obtain ⟨a, ha', rfl⟩ := List.mem_map.1 ha
    obtain ⟨b, hb', rfl⟩ := List.mem_map.1 hb
    obtain ⟨i1, i2⟩ := h.index a ha' b hb' (hk.idx e)
    exact ⟨i1, congrArg (List.map r.idx) i2⟩

omit hk in
theorem relabel_zooms (h : ZoomsAscend pms) : ZoomsAscend (pms.map (r.phrasematch)) := by
  intro a ha b hb hlt
  obtain ⟨a, ha', rfl⟩ := List.mem_map.1 ha
  obtain ⟨b, hb', rfl⟩ := List.mem_map.1 hb
  exact h a ha' b hb' hlt

end

/-- **C104**: index numbers and the ids of match keys are labels: with other ones, every context is
returned that was returned before, with the other numbers in it, in release builds. -/
theorem C104_kept {env env' : TreeEnv} (henv : env.toEnv = env'.toEnv) (hchk : env.chk = false)
    {r : Renumbering} {qs : List Subquery} {opts : MatchOpts} (hr : r.Ok) (hd : Delivered qs)
    (hfew : FewGroupStacks 2000 qs) (hz : ZoomsAscend qs) (hroom : RoomForGroups qs)
    {out out' : List Context} (hout : stackAndCoalesce env qs opts = some out)
    (hout' : stackAndCoalesce env' (qs.map r.phrasematch) opts = some out') (hlen : Short out') :
    ∀ c ∈ out, r.context c ∈ out' := by
  intro c hc
  refine C91_complete (relabel_delivered hr hd) (relabel_few hr hfew) (.inr (relabel_zooms hz))
    (relabel_room hr hroom) hout' hlen _ ?_
  rw [← henv]
  exact relabel_returned hr hchk (C91_sound hd hfew (.inr hz) hout c hc)

/-- **C104**: and nothing else is returned. -/
theorem C104_nothing_new {env env' : TreeEnv} (henv : env.toEnv = env'.toEnv)
    (hchk : env.chk = false) {r : Renumbering} {qs : List Subquery} {opts : MatchOpts} (hr : r.Ok)
    (hd : Delivered qs) (hfew : FewGroupStacks 2000 qs) (hz : ZoomsAscend qs)
    (hroom : RoomForGroups qs) {out out' : List Context}
    (hout : stackAndCoalesce env qs opts = some out)
    (hout' : stackAndCoalesce env' (qs.map r.phrasematch) opts = some out') (hlen : Short out) :
    ∀ c' ∈ out', ∃ c ∈ out, c' = r.context c := by
  intro c' hc'
  have := C91_sound (relabel_delivered hr hd) (relabel_few hr hfew) (.inr (relabel_zooms hz))
    hout' c' hc'
  rw [← henv] at this
  obtain ⟨c, rfl, hc⟩ := relabel_returned_back hr hchk this
  exact ⟨c, C91_complete hd hfew (.inr hz) hroom hout hlen c hc, rfl⟩

/-! ## An example -/

/-- The first two indexes change numbers, and ids are ten more. -/
def swapIndexes : Renumbering := ⟨Equiv.swap 0 1, (· + 10)⟩

theorem swapIndexes_ok : swapIndexes.Ok :=
  ⟨(Equiv.swap 0 1).injective, add_left_injective 10, by decide⟩

example : (growthMatches.map swapIndexes.phrasematch).map (fun q => (q.idx, q.matchKeys.map (·.id))) =
    [(1, [10]), (0, [11])] := by decide +kernel

example : ∃ out out', stackAndCoalesce (listTreeEnv false) growthMatches plainOpts = some out ∧
    stackAndCoalesce (listTreeEnv false) (growthMatches.map swapIndexes.phrasematch) plainOpts =
      some out' ∧ (∃ c ∈ out, c.entries.length = 2) ∧
    (∀ c ∈ out, swapIndexes.context c ∈ out') ∧
    ∀ c' ∈ out', ∃ c ∈ out, c' = swapIndexes.context c := by
  have h1 : (stackAndCoalesce (listTreeEnv false) growthMatches plainOpts).map
      (fun out => decide (out.length < 40 ∧ ∃ c ∈ out, c.entries.length = 2)) = some true := by
    decide +kernel
  have h2 : (stackAndCoalesce (listTreeEnv false) (growthMatches.map swapIndexes.phrasematch)
      plainOpts).map (fun out => decide (out.length < 40)) = some true := by
    decide +kernel
  obtain ⟨out, h1, h3⟩ := Option.map_eq_some_iff.1 h1
  obtain ⟨out', h2, h4⟩ := Option.map_eq_some_iff.1 h2
  obtain ⟨h3, h5⟩ := of_decide_eq_true h3
  have h4 := of_decide_eq_true h4
  have hd : Delivered growthMatches := ⟨by decide +kernel, by decide +kernel, by decide +kernel⟩
  have hroom : RoomForGroups growthMatches :=
    room_of_small (by decide +kernel) (by decide +kernel) (by
      intro q hq kg hk
      simp only [growthMatches, List.mem_cons, List.not_mem_nil, or_false] at hq
      rcases hq with rfl | rfl <;> exact ⟨_, by rw [List.mem_singleton.1 hk]⟩)
  have hz : ZoomsAscend growthMatches := by
    unfold ZoomsAscend
    decide +kernel
  have hfew : FewGroupStacks 2000 growthMatches := few_of_small (by decide +kernel)
  exact ⟨out, out', h1, h2, h5,
    C104_kept rfl rfl swapIndexes_ok hd hfew hz hroom h1 h2 (short_of_few h4),
    C104_nothing_new rfl rfl swapIndexes_ok hd hfew hz hroom h1 h2 (short_of_few h3)⟩

/-- The first index has number 129, and the other way round. -/
def likeRoot : Renumbering := ⟨Equiv.swap 0 129, id⟩

/-- The street may not be combined with the region. -/
def apartMatches : List Subquery :=
  growthMatches.map fun q => if q.idx = 1 then { q with nonOverlapping := [0] } else q

/-- The number 129 must be left alone: the root of the tree has it, and with this number for the region
the street, which may not be combined with it, is not found at all. -/
theorem C104_root_number : ∃ out out',
    stackAndCoalesce (listTreeEnv false) apartMatches plainOpts = some out ∧
    stackAndCoalesce (listTreeEnv false) (apartMatches.map likeRoot.phrasematch) plainOpts =
      some out' ∧ (∃ c ∈ out, c.mask = 2) ∧ ∀ c ∈ out', c.mask ≠ 2 := by
  have h : ((stackAndCoalesce (listTreeEnv false) apartMatches plainOpts).bind fun out =>
      (stackAndCoalesce (listTreeEnv false) (apartMatches.map likeRoot.phrasematch)
        plainOpts).map fun out' => decide ((∃ c ∈ out, c.mask = 2) ∧ ∀ c ∈ out', c.mask ≠ 2)) =
      some true := by decide +kernel
  obtain ⟨out, h1, h⟩ := Option.bind_eq_some_iff.1 h
  obtain ⟨out', h2, h⟩ := Option.map_eq_some_iff.1 h
  exact ⟨out, out', h1, h2, of_decide_eq_true h⟩

end Carmen
