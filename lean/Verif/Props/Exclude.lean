import Verif.Spec.Exclude
import Verif.Props.Renumber
import Verif.Props.Frame

/-!
# C105: more indexes that do not overlap
-/

namespace Carmen
open Spec

section
variable {f : ℕ → List ℕ} {pms : List Subquery} (hf : MoreExclusions f pms)
include hf

theorem exclude_isStack {qs : List Subquery} (hq : ∀ q ∈ qs, q ∈ pms) :
    IsStack (pms.map (withExclusions f)) (qs.map (withExclusions f)) ↔
      IsStack pms qs ∧ qs.IsChain fun a b => a.idx ∉ f b.idx := by
  constructor
  · intro h
    have hn : qs.IsChain fun a b => a.idx ∉ f b.idx :=
      (List.isChain_map (withExclusions f)).1 h.neighbours
    refine ⟨⟨hq, (List.pairwise_map (f := withExclusions f)).1 h.types,
      (List.pairwise_map (f := withExclusions f)).1 h.masks, ?_, ?_⟩, hn⟩
    · exact hn.imp_of_mem_imp fun a b _ hb e hm => e (hf.more b (hq b hb) _ hm)
    · intro q hq' hm
      have hqm := hq q (List.mem_of_head? hq')
      exact hf.root q hqm (hf.more q hqm _ hm)
  · rintro ⟨h, hn⟩
    refine ⟨?_, List.pairwise_map.2 h.types, List.pairwise_map.2 h.masks,
      (List.isChain_map _).2 hn, ?_⟩
    · intro q hq'
      obtain ⟨a, ha, rfl⟩ := List.mem_map.1 hq'
      exact List.mem_map_of_mem (hq a ha)
    · intro q hq'
      rw [List.head?_map, Option.mem_def, Option.map_eq_some_iff] at hq'
      obtain ⟨a, ha, rfl⟩ := hq'
      exact hf.root a (hq a (List.mem_of_head? ha))

/-- The hit in the other request. -/
def excludeHit (f : ℕ → List ℕ) (h : Hit) : Hit := { h with q := withExclusions f h.q }

omit hf in
theorem exclude_pull {qs' : List Subquery} (hq : ∀ q ∈ qs', q ∈ pms.map (withExclusions f)) :
    ∃ qs : List Subquery, qs.map (withExclusions f) = qs' ∧ ∀ q ∈ qs, q ∈ pms := by
  induction qs' with
  | nil => exact ⟨[], rfl, by simp⟩
  | cons q' t ih =>
    obtain ⟨qs, h1, h2⟩ := ih fun q h => hq q (List.mem_cons_of_mem _ h)
    obtain ⟨q, h3, rfl⟩ := List.mem_map.1 (hq q' List.mem_cons_self)
    exact ⟨q :: qs, by rw [List.map_cons, h1], List.forall_mem_cons.2 ⟨h3, h2⟩⟩

omit hf in
theorem exclude_pullStacks {l' : List (List Subquery)}
    (h : ∀ qs ∈ l', ∀ q ∈ qs, q ∈ pms.map (withExclusions f)) :
    ∃ l : List (List Subquery), l.map (List.map (withExclusions f)) = l' ∧
      ∀ qs ∈ l, ∀ q ∈ qs, q ∈ pms := by
  induction l' with
  | nil => exact ⟨[], rfl, by simp⟩
  | cons qs' t ih =>
    obtain ⟨l, h1, h2⟩ := ih fun q h' => h q (List.mem_cons_of_mem _ h')
    obtain ⟨qs, h3, h4⟩ := exclude_pull (h qs' List.mem_cons_self)
    exact ⟨qs :: l, by rw [List.map_cons, h1, h3], List.forall_mem_cons.2 ⟨h4, h2⟩⟩

omit hf in
theorem exclude_pullHits {hs' : List Hit} (hq : ∀ h ∈ hs', h.q ∈ pms.map (withExclusions f)) :
    ∃ hs : List Hit, hs.map (excludeHit f) = hs' ∧ ∀ h ∈ hs, h.q ∈ pms := by
  induction hs' with
  | nil => exact ⟨[], rfl, by simp⟩
  | cons h' t ih =>
    obtain ⟨hs, h1, h2⟩ := ih fun q h => hq q (List.mem_cons_of_mem _ h)
    obtain ⟨q, h3, h4⟩ := List.mem_map.1 (hq h' List.mem_cons_self)
    refine ⟨⟨q, h'.kg, h'.grid⟩ :: hs, ?_, List.forall_mem_cons.2 ⟨h3, h2⟩⟩
    rw [List.map_cons, h1]
    congr 1
    unfold excludeHit
    rw [h4]

omit hf in
theorem not_lone_of_two {p : List Subquery} {hs : List Hit} (h : 2 ≤ hs.length) : ¬ Lone p hs := by
  rintro ⟨x, rfl, _⟩
  simp at h

omit hf in
theorem exclude_loses {hs : List Hit} (h2 : 2 ≤ hs.length) :
    LosesPoints (pms.map (withExclusions f)) (hs.map (excludeHit f)) ↔ LosesPoints pms hs := by
  constructor
  · rintro (⟨h', e, hx⟩ | ⟨a', u', l', e, hlt⟩)
    · obtain ⟨h, rfl, rfl⟩ := List.map_eq_singleton_iff.1 e
      simp at h2
    · obtain ⟨a, b, rfl, rfl, e2⟩ := List.map_eq_append_iff.1 e
      obtain ⟨u, t, rfl, rfl, e3⟩ := List.map_eq_cons_iff.1 e2
      obtain ⟨l, t', rfl, rfl, e4⟩ := List.map_eq_cons_iff.1 e3
      rw [List.map_eq_nil_iff] at e4
      subst e4
      exact Or.inr ⟨a, u, l, rfl, hlt⟩
  · rintro (⟨h, rfl, hx⟩ | ⟨a, u, l, rfl, hlt⟩)
    · simp at h2
    · exact Or.inr ⟨a.map (excludeHit f), excludeHit f u, excludeHit f l, by simp, hlt⟩

omit hf in
theorem exclude_keys {a b : List Subquery} :
    groupKeys (a.map (withExclusions f)) = groupKeys (b.map (withExclusions f)) ↔
      groupKeys a = groupKeys b := by
  unfold groupKeys
  rw [List.map_map, List.map_map]
  rfl

theorem exclude_room (h : RoomForGroups pms) : RoomForGroups (pms.map (withExclusions f)) := by
  intro l' h1 h2
  obtain ⟨l, rfl, hl⟩ := exclude_pullStacks fun qs hqs => (h2 qs hqs).2.mem
  have hr : RoomFor (lastScans l) := by
    refine h l ?_ fun qs hqs => ?_
    · rw [List.map_map] at h1
      refine nodup_map_of h1 fun a ha b hb e => ?_
      obtain ⟨e1, e2⟩ := Prod.mk.injEq .. ▸ e
      simp only [Function.comp, List.getLast?_map, exclude_keys.2 e1, e2]
    · obtain ⟨a1, a2⟩ := h2 _ (List.mem_map_of_mem hqs)
      exact ⟨fun e => a1 (by rw [e]; rfl), ((exclude_isStack hf (hl qs hqs)).1 a2).1⟩
  have e : lastScans (l.map (List.map (withExclusions f))) =
      (lastScans l).map fun s => (withExclusions f s.1, s.2) := by
    unfold lastScans
    rw [List.flatMap_map, List.map_flatMap]
    congr 1
    funext qs
    rw [List.getLast?_map]
    cases qs.getLast? with
    | none => rfl
    | some q => simp [withExclusions]
  rw [e]
  refine ⟨?_, AtMost.map hr.letters fun _ _ h => h, AtMost.map hr.words fun _ _ h => h,
    AtMost.map hr.ranges fun _ _ h => h, AtMost.map hr.highs fun _ _ h => h⟩
  intro s' hs' hw ho
  obtain ⟨s, hs, rfl⟩ := List.mem_map.1 hs'
  exact hr.worth s hs hw ho

variable {env : Env} {opts : MatchOpts}

omit hf in
theorem exclude_entries {hs : List Hit} {es : List CoalesceEntry} :
    List.Forall₂ (fun h e => MadeFrom h.q h.grid e ∧ e.phrasematchId = h.kg.id)
      (hs.map (excludeHit f)).reverse es ↔
    List.Forall₂ (fun h e => MadeFrom h.q h.grid e ∧ e.phrasematchId = h.kg.id) hs.reverse es := by
  rw [← List.map_reverse, List.forall₂_map_left_iff]
  rfl

/-- Contexts of several phrase matches are the same in both requests, if they are allowed. -/
theorem exclude_contextOf {hs : List Hit} (hq : ∀ h ∈ hs, h.q ∈ pms) (h2 : 2 ≤ hs.length)
    {c : Context} :
    ContextOf env opts (pms.map (withExclusions f)) (hs.map (excludeHit f)) c ↔
      ContextOf env opts pms hs c ∧ (hs.map Hit.q).IsChain fun a b => a.idx ∉ f b.idx := by
  have hmapq : (hs.map (excludeHit f)).map Hit.q = (hs.map Hit.q).map (withExclusions f) := by
    rw [List.map_map, List.map_map]; rfl
  have hrel : (hs.map (excludeHit f)).map Hit.relev = hs.map Hit.relev := by
    rw [List.map_map]; rfl
  have hmask : (hs.map (excludeHit f)).map (·.q.mask) = hs.map (·.q.mask) := by
    rw [List.map_map]; rfl
  have hqm : ∀ q ∈ hs.map Hit.q, q ∈ pms := by
    intro q hq'
    obtain ⟨x, hx, rfl⟩ := List.mem_map.1 hq'
    exact hq x hx
  have n1 : ¬ Lone pms hs := not_lone_of_two h2
  have n2 : ¬ Lone (pms.map (withExclusions f)) (hs.map (excludeHit f)) :=
    not_lone_of_two (by rwa [List.length_map])
  constructor
  · intro h
    have hst := h.stack
    rw [hmapq] at hst
    obtain ⟨s1, s2⟩ := (exclude_isStack hf hqm).1 hst
    refine ⟨⟨by simpa using h.ne, s1, ?_, exclude_entries.1 h.entries,
      (List.isChain_map (excludeHit f)).1 h.tiles, by rw [h.mask, hmask], ?_, ?_, ?_⟩, s2⟩
    · intro x hx limit h3 h4
      exact h.answers (excludeHit f x) (List.mem_map_of_mem hx) limit (fun h => absurd h n2)
        fun _ => h4 n1
    · intro hn
      rw [← exclude_loses h2 (f := f)] at hn
      rw [h.plain hn, hrel]
    · intro hn
      rw [← exclude_loses h2 (f := f)] at hn
      rw [h.penalty hn, hrel]
    · intro _ x hx
      exact h.first n2 (excludeHit f x) (List.mem_map_of_mem hx)
  · rintro ⟨h, s2⟩
    refine ⟨by simpa using h.ne, ?_, ?_, exclude_entries.2 h.entries,
      (List.isChain_map (excludeHit f)).2 h.tiles, by rw [h.mask, hmask], ?_, ?_, ?_⟩
    · rw [hmapq]
      exact (exclude_isStack hf hqm).2 ⟨h.stack, s2⟩
    · intro x hx limit h3 h4
      obtain ⟨x, hx', rfl⟩ := List.mem_map.1 hx
      exact h.answers x hx' limit (fun h => absurd h n1) fun _ => h4 n2
    · intro hn
      rw [exclude_loses h2] at hn
      rw [hrel, h.plain hn]
    · intro hn
      rw [exclude_loses h2] at hn
      rw [hrel, h.penalty hn]
    · intro _ x hx
      obtain ⟨x, hx', rfl⟩ := List.mem_map.1 hx
      exact h.first n1 x hx'

omit hf in
theorem exclude_over {above : List Subquery} {hs : List Hit} (hq : ∀ h ∈ hs, h.q ∈ pms) :
    HitsOver env opts (pms.map (withExclusions f)) (above.map (withExclusions f))
      (hs.map (excludeHit f)) ↔ HitsOver env opts pms above hs := by
  have hmapq : (hs.map (excludeHit f)).map Hit.q = (hs.map Hit.q).map (withExclusions f) := by
    rw [List.map_map, List.map_map]; rfl
  constructor
  · intro h
    refine ⟨?_, hq, fun x hx => h.answers (excludeHit f x) (List.mem_map_of_mem hx),
      (List.isChain_map (excludeHit f)).1 h.tiles⟩
    have := h.keys
    rw [hmapq] at this
    exact exclude_keys.1 this
  · intro h
    refine ⟨?_, ?_, ?_, (List.isChain_map (excludeHit f)).2 h.tiles⟩
    · rw [hmapq]
      exact exclude_keys.2 h.keys
    · intro x hx
      obtain ⟨x, hx', rfl⟩ := List.mem_map.1 hx
      exact List.mem_map_of_mem (hq x hx')
    · intro x hx
      obtain ⟨x, hx', rfl⟩ := List.mem_map.1 hx
      exact h.answers x hx'

omit hf in
theorem exclude_notCut {qs : List Subquery} :
    NotCut env opts (pms.map (withExclusions f)) (qs.map (withExclusions f)) ↔
      NotCut env opts pms qs := by
  constructor
  · intro h above q below e hne
    subst e
    obtain ⟨tops, last, h1, h2⟩ := h (above.map (withExclusions f)) (withExclusions f q)
      (below.map (withExclusions f)) (by simp) (by simpa using hne)
    obtain ⟨hs, h3, h4⟩ := exclude_pullHits h1.mem
    rw [← h3] at h1
    obtain ⟨tops, l, rfl, rfl, h5⟩ := List.map_eq_append_iff.1 h3
    obtain ⟨last, rfl, rfl⟩ := List.map_eq_singleton_iff.1 h5
    exact ⟨tops, last, (exclude_over h4).1 h1, h2⟩
  · intro h above' q' below' e hne
    obtain ⟨above, rest, rfl, rfl, hrest⟩ := List.map_eq_append_iff.1 e
    obtain ⟨q, below, rfl, rfl, rfl⟩ := List.map_eq_cons_iff.1 hrest
    obtain ⟨tops, last, h1, h2⟩ := h above q below rfl (by simpa using hne)
    refine ⟨tops.map (excludeHit f), excludeHit f last, ?_, h2⟩
    have := (exclude_over (f := f) h1.mem).2 h1
    rwa [List.map_append] at this

omit hf in
theorem allowed_iff {hs : List Hit} {c : Context}
    (h : List.Forall₂ (fun h e => MadeFrom h.q h.grid e ∧ e.phrasematchId = h.kg.id) hs.reverse
      c.entries) :
    Allowed f c ↔ (hs.map Hit.q).IsChain fun a b => a.idx ∉ f b.idx := by
  have e : c.entries.map (·.idx) = ((hs.map Hit.q).map (·.idx)).reverse := by
    rw [List.map_map, ← List.map_reverse]
    generalize hs.reverse = l at h ⊢
    generalize c.entries = es at h ⊢
    induction h with
    | nil => rfl
    | cons h1 _ ih =>
      rw [List.map_cons, List.map_cons, ih]
      congr 1
      exact h1.1.2.2.2.2.2.2.2.2.2.2.1
  have key : Allowed f c ↔ (c.entries.map (·.idx)).IsChain fun lower upper => upper ∉ f lower :=
    (List.isChain_map (R := fun lower upper => upper ∉ f lower)
      (fun x : CoalesceEntry => x.idx)).symm
  rw [key, e, List.isChain_reverse]
  exact List.isChain_map (fun x : Subquery => x.idx)

omit hf in
theorem exclude_delivered (h : Delivered pms) : Delivered (pms.map (withExclusions f)) := by
  refine ⟨?_, ?_, ?_⟩
  · intro q hq
    obtain ⟨q, hq', rfl⟩ := List.mem_map.1 hq
    exact h.one q hq'
  · rw [List.flatMap_map]
    exact h.ids
  · intro a ha b hb e
    obtain ⟨a, ha', rfl⟩ := List.mem_map.1 ha
    obtain ⟨b, hb', rfl⟩ := List.mem_map.1 hb
    exact ⟨(h.index a ha' b hb' e).1, congrArg f e⟩

omit hf in
theorem exclude_zooms (h : ZoomsAscend pms) : ZoomsAscend (pms.map (withExclusions f)) := by
  intro a ha b hb hlt
  obtain ⟨a, ha', rfl⟩ := List.mem_map.1 ha
  obtain ⟨b, hb', rfl⟩ := List.mem_map.1 hb
  exact h a ha' b hb' hlt

omit hf in
/-- A context of several entries does not stand alone. -/
theorem several_returned {c : Context} (h : IsReturned env opts pms c) (h2 : 2 ≤ c.entries.length) :
    ∃ hs, 2 ≤ hs.length ∧ NotCut env opts pms (hs.map Hit.q) ∧ ContextOf env opts pms hs c := by
  rcases h with ⟨hs, _, hcut, hc⟩ | ⟨q, kg, o, grids, all, -, -, -, -, -, h6, h7⟩
  · refine ⟨hs, ?_, hcut, hc⟩
    have := hc.entries.length_eq
    rw [List.length_reverse] at this
    omega
  · exfalso
    unfold treeSingle at h6
    simp only [Option.bind_eq_bind, Option.bind_eq_some_iff, Option.some.injEq] at h6
    obtain ⟨s, -, rfl⟩ := h6
    unfold singleById at h7
    obtain ⟨p, -, rfl⟩ := List.mem_map.1 h7
    simp [singleContext] at h2

end

/-- **C105**: when more indexes are said not to overlap, contexts of several phrase matches that are
still allowed come back unchanged. -/
theorem C105_kept {env env' : TreeEnv} (henv : env.toEnv = env'.toEnv) {f : ℕ → List ℕ}
    {qs : List Subquery} {opts : MatchOpts} (hf : MoreExclusions f qs) (hd : Delivered qs)
    (hfew : FewGroupStacks 2000 qs) (hfew' : FewGroupStacks 2000 (qs.map (withExclusions f)))
    (hz : env.chk = true ∨ ZoomsAscend qs) (hroom : RoomForGroups qs)
    {out out' : List Context} (hout : stackAndCoalesce env qs opts = some out)
    (hout' : stackAndCoalesce env' (qs.map (withExclusions f)) opts = some out')
    (hlen : Short out') :
    ∀ c ∈ out, 2 ≤ c.entries.length → Allowed f c → c ∈ out' := by
  intro c hc h2 ha
  obtain ⟨hs, n2, hcut, hcx⟩ := several_returned (C91_sound hd hfew hz hout c hc) h2
  have hq : ∀ h ∈ hs, h.q ∈ qs := fun x hx => hcx.stack.mem _ (List.mem_map_of_mem hx)
  refine C91_complete (exclude_delivered hd) hfew' ?_ (exclude_room hf hroom) hout' hlen _ ?_
  · rw [← show env.chk = env'.chk from congrArg Env.chk henv]
    exact hz.imp_right exclude_zooms
  · rw [← henv]
    refine Or.inl ⟨hs.map (excludeHit f), not_lone_of_two (by rwa [List.length_map]), ?_,
      (exclude_contextOf hf hq n2).2 ⟨hcx, (allowed_iff hcx.entries).1 ha⟩⟩
    have := (exclude_notCut (f := f) (env := env.toEnv) (opts := opts) (pms := qs)).2 hcut
    rw [List.map_map] at this ⊢
    exact this

/-- **C105**: and only those do. -/
theorem C105_only {env env' : TreeEnv} (henv : env.toEnv = env'.toEnv) {f : ℕ → List ℕ}
    {qs : List Subquery} {opts : MatchOpts} (hf : MoreExclusions f qs) (hd : Delivered qs)
    (hfew : FewGroupStacks 2000 qs) (hfew' : FewGroupStacks 2000 (qs.map (withExclusions f)))
    (hz : env.chk = true ∨ ZoomsAscend qs) (hroom : RoomForGroups qs)
    {out out' : List Context} (hout : stackAndCoalesce env qs opts = some out)
    (hout' : stackAndCoalesce env' (qs.map (withExclusions f)) opts = some out')
    (hlen : Short out) :
    ∀ c ∈ out', 2 ≤ c.entries.length → c ∈ out ∧ Allowed f c := by
  intro c hc h2
  have hz' : env'.chk = true ∨ ZoomsAscend (qs.map (withExclusions f)) := by
    rw [← show env.chk = env'.chk from congrArg Env.chk henv]
    exact hz.imp_right exclude_zooms
  have hr := C91_sound (exclude_delivered hd) hfew' hz' hout' c hc
  rw [← henv] at hr
  obtain ⟨hs', n2, hcut, hcx⟩ := several_returned hr h2
  obtain ⟨hs, rfl, hq⟩ := exclude_pullHits (f := f) (pms := qs) (hs' := hs')
    fun x hx => hcx.stack.mem _ (List.mem_map_of_mem hx)
  rw [List.length_map] at n2
  obtain ⟨hcx, ha⟩ := (exclude_contextOf hf hq n2).1 hcx
  refine ⟨C91_complete hd hfew hz hroom hout hlen c (Or.inl ⟨hs, not_lone_of_two n2, ?_, hcx⟩),
    (allowed_iff hcx.entries).2 ha⟩
  refine (exclude_notCut (f := f)).1 ?_
  rw [List.map_map] at hcut ⊢
  exact hcut

/-- **C105**: `coalesce`, which is given one stack, does not look at them at all. -/
theorem C105_coalesce (env : Env) (os : ℕ → IterOrder) (f : ℕ → List ℕ) (stack : List Subquery)
    (opts : MatchOpts) :
    coalesce env os (stack.map (withExclusions f)) opts = coalesce env os stack opts := by
  refine (coalesce_alike ?_ os opts).symm
  rw [List.forall₂_map_right_iff]
  refine List.forall₂_same.2 fun q _ => ⟨rfl, rfl, ?_⟩
  change Option.Rel _ q.matchKeys.head? q.matchKeys.head?
  cases q.matchKeys.head? with
  | none => exact .none
  | some k => exact .some fun _ _ => rfl

/-! ## Examples -/

/-- What does not overlap: the second index with those numbered from `5` to `9`, and the first. -/
def farExclusions (first : Bool) (i : ℕ) : List ℕ :=
  if i = 1 then (if first then [0] else []) ++ [5, 6, 7, 8, 9] else [7]

theorem farExclusions_more (b : Bool) : MoreExclusions (farExclusions b) growthMatches := by
  constructor <;> revert b <;> decide +kernel

/-- Indexes that have nothing in common do not change the contexts of two parts. With the first index
excluded, there are none. -/
example (first : Bool) : ∃ out out',
    stackAndCoalesce (listTreeEnv false) growthMatches plainOpts = some out ∧
    stackAndCoalesce (listTreeEnv false) (growthMatches.map (withExclusions (farExclusions first)))
      plainOpts = some out' ∧ (∃ c ∈ out, 2 ≤ c.entries.length) ∧
    ((∃ c ∈ out', 2 ≤ c.entries.length) ↔ first = false) ∧
    (∀ c ∈ out, 2 ≤ c.entries.length → Allowed (farExclusions first) c → c ∈ out') ∧
    ∀ c ∈ out', 2 ≤ c.entries.length → c ∈ out ∧ Allowed (farExclusions first) c := by
  have h1 : (stackAndCoalesce (listTreeEnv false) growthMatches plainOpts).map
      (fun out => decide (out.length < 40 ∧ ∃ c ∈ out, 2 ≤ c.entries.length)) = some true := by
    decide +kernel
  have h2 : (stackAndCoalesce (listTreeEnv false)
      (growthMatches.map (withExclusions (farExclusions first))) plainOpts).map
      (fun out => decide (out.length < 40 ∧
        ((∃ c ∈ out, 2 ≤ c.entries.length) ↔ first = false))) = some true := by
    revert first
    decide +kernel
  obtain ⟨out, h1, h3⟩ := Option.map_eq_some_iff.1 h1
  obtain ⟨out', h2, h4⟩ := Option.map_eq_some_iff.1 h2
  obtain ⟨h3, h5⟩ := of_decide_eq_true h3
  obtain ⟨h4, h6⟩ := of_decide_eq_true h4
  have hd : Delivered growthMatches := ⟨by decide +kernel, by decide +kernel, by decide +kernel⟩
  have hroom : RoomForGroups growthMatches :=
    room_of_small (by decide +kernel) (by decide +kernel) (by
      intro q hq kg hk
      simp only [growthMatches, List.mem_cons, List.not_mem_nil, or_false] at hq
      rcases hq with rfl | rfl <;> exact ⟨_, by rw [List.mem_singleton.1 hk]⟩)
  have hz : ZoomsAscend growthMatches := by
    unfold ZoomsAscend
    decide +kernel
  have hfew : FewGroupStacks 2000 growthMatches := few_of_small (by decide +kernel)
  have hfew' : FewGroupStacks 2000 (growthMatches.map (withExclusions (farExclusions first))) :=
    few_of_small (by cases first <;> decide +kernel)
  have hf := farExclusions_more first
  exact ⟨out, out', h1, h2, h5, h6,
    C105_kept rfl hf hd hfew hfew' (.inr hz) hroom h1 h2 (short_of_few h4),
    C105_only rfl hf hd hfew hfew' (.inr hz) hroom h1 h2 (short_of_few h3)⟩

/-- Contexts of one phrase match may change: the region loses 0.01 while something could be below it, and
no more when that is excluded. -/
theorem C105_one_changes : ∃ out out',
    stackAndCoalesce (listTreeEnv false) growthMatches plainOpts = some out ∧
    stackAndCoalesce (listTreeEnv false) (growthMatches.map (withExclusions (farExclusions true)))
      plainOpts = some out' ∧ (∃ c ∈ out', c.mask = 1) ∧ ∀ c ∈ out', c.mask = 1 → c.relev ∉ out.map (·.relev) := by
  have h : ((stackAndCoalesce (listTreeEnv false) growthMatches plainOpts).bind fun out =>
      (stackAndCoalesce (listTreeEnv false)
        (growthMatches.map (withExclusions (farExclusions true))) plainOpts).map fun out' =>
          decide ((∃ c ∈ out', c.mask = 1) ∧ ∀ c ∈ out', c.mask = 1 → c.relev ∉ out.map (·.relev))) = some true := by
    decide +kernel
  obtain ⟨out, h1, h⟩ := Option.bind_eq_some_iff.1 h
  obtain ⟨out', h2, h⟩ := Option.map_eq_some_iff.1 h
  exact ⟨out, out', h1, h2, of_decide_eq_true h⟩

end Carmen
