import Verif.Lemmas.TreeAlone
import Verif.Props.Single
import Verif.Props.EndToEnd
import Verif.Props.Found

/-!
# C69: a phrase match that stands alone is not lost
-/

namespace Carmen
open Format Spec Builder

/-- What the loop over the results of one match key collects. -/
theorem single_settles (o : IterOrder) (b : Builder) (hb : b.Wf) (db : SMap Bytes Bytes)
    (hfin : finish o b = some db) (hsmall : SmallRecords db) (env : Env)
    (q : Subquery) (hs : q.store.db = db) (key : MatchKey) (pid : ℕ)
    (hst : key.phrase.start < 2 ^ 32) (opts : MatchOpts) (ho : OptsWf opts)
    (hn : NumbersOk opts q.store.radius)
    (hwv : q.weight.Valid) (hlo : .fin (1 / 2 ^ 40) ≤ q.weight) (hhi : q.weight ≤ 1)
    (grids : List MatchEntry) (hg : env.query q.store key opts 80 = some grids)
    (hlang : SameSide opts q.store.radius grids)
    (hzero : ∀ g, grids.head? = some g → g.entry.id ≠ 0 ∨ 0 < g.scoredist)
    {s : SingleState} (hloop : singleLoop (mkEntry env.chk opts q pid) opts.proximity.isNone
      SingleState.init grids = some s)
    (g : MatchEntry) (hgm : g ∈ grids)
    (hclose : ∀ g' ∈ grids, F64.flt (g'.entry.relev * q.weight - g.entry.relev * q.weight)
      (lit 0.25) = true) :
    (∀ p ∈ s.coalesced, ∃ r ∈ grids, p.2 = toEntry r q pid ∧ r.entry.id = p.1) ∧
    Settled opts.proximity.isNone (grids.map fun g => toEntry g q pid) s (toEntry g q pid) := by
  have hw0 : 0 ≤ q.weight := le_trans (by decide +kernel) hlo
  have hw : q.weight.IsFin := isFin_of_between (b := 1) trivial hw0 hhi
  have hres := getMatching_mem hg
  have hsorted := falls_of_sameSide (C22_relevance_partial db (laidOut_finish hb hfin hsmall) q.store
    hs env.merger env.rows env.chk key hst opts ho hn 80 (by decide) grids hg) hlang
  have hmono : ∀ a ∈ grids, ∀ c ∈ grids, c.entry.relev ≤ a.entry.relev →
      c.entry.relev * q.weight ≤ a.entry.relev * q.weight := fun a ha c hc hle =>
    F64.mul_mono (hres c hc).relev_bounds.1 hw (hres a ha).relev_bounds.1 hw hw0
      (hres a ha).relev_bounds.2.2.1.le hle (le_refl _)
  have hok : LoopOk ([] ++ grids.map fun g => toEntry g q pid) := by
    rw [List.nil_append]
    refine ⟨?_, ?_, ?_, ?_⟩
    · rw [List.pairwise_map]
      exact hsorted.imp_of_mem fun ha hc hle => hmono _ ha _ hc hle
    · intro e he
      obtain ⟨g, hg, rfl⟩ := List.mem_map.1 he
      obtain ⟨h1, _, h2, h3⟩ := (hres g hg).relev_bounds
      have h0 := F64.mul_nonneg' h1 hw h2.le hw0
      exact ⟨isFin_of_between hw h0 (F64.mul_le_right h1 hw hwv hw0 h3), h0⟩
    · intro e he
      obtain ⟨g, hg, rfl⟩ := List.mem_map.1 he
      exact (hres g hg).scoredist_ne_nan ho hn
    · intro e he
      rw [List.head?_map, Option.map_eq_some_iff] at he
      obtain ⟨g, hgh, rfl⟩ := he
      exact hzero g hgh
  have hranked : opts.proximity.isNone = true →
      ([] ++ grids.map fun g => toEntry g q pid).Pairwise
        fun (a b : CoalesceEntry) => b.rank ≤ a.rank := by
    intro hpr
    rw [Option.isNone_iff_eq_none] at hpr
    rw [List.nil_append, List.pairwise_map]
    refine (C22_best_first_partial db (laidOut_finish hb hfin hsmall) q.store hs env.merger env.rows
        env.chk key hst opts ho hpr 80 (by decide) grids hg).imp_of_mem ?_
    intro a c ha hc hac
    rw [rank_le_iff]
    rcases hac with h | ⟨h, h'⟩
    · exact Or.inl (weighted_apart (hres c hc) (hres a ha) hlo hhi h)
    · exact Or.inr ⟨by show c.entry.relev * _ = a.entry.relev * _; rw [h], h'⟩
  have hmk : ∀ g e, mkEntry env.chk opts q pid g = some e → e = toEntry g q pid :=
    fun g e h => mkEntry_some h
  obtain ⟨hfrom, hset⟩ := singleLoop_full (done := []) hmk hok hranked fullInv_init hloop
  rw [List.nil_append] at hfrom hset
  refine ⟨fun p hp => ?_, hset _ (List.mem_map_of_mem hgm) fun a ha => ?_⟩
  · obtain ⟨r, hr, hrp⟩ := List.mem_map.1 (hfrom p hp).1
    refine ⟨r, hr, hrp.symm, ?_⟩
    have := (hfrom p hp).2
    rw [← hrp] at this
    exact this
  · obtain ⟨g', hg', rfl⟩ := List.mem_map.1 ha
    exact hclose g' hg'

/-- A result of a phrase match that stands alone is returned, or the reason why it need not be. -/
def NotLost (q : Subquery) (opts : MatchOpts) (grids : List MatchEntry) (g : MatchEntry)
    (out : List Context) (Of : MatchEntry → Context → Prop) : Prop :=
  (∃ c ∈ out, ∃ r ∈ grids, r.entry.id = g.entry.id ∧ Of r c ∧ AtLeastAsGood q g c) ∨
  (∃ better : List Context, better.Subperm out ∧ better.length = 40 ∧
    ∀ c ∈ better, (∃ r ∈ grids, Of r c) ∧ AtLeastAsGood q g c) ∨
  (80 < idChanges 0 (grids.map (·.entry.id)) ∧
    ∃ c ∈ out, (∃ r ∈ grids, Of r c) ∧ AtLeastAsGood q g c ∧
      (opts.proximity ≠ none → Better q g c))

theorem Spec.AtLeastAsGood.relev {q : Subquery} {g : MatchEntry} {c : Context}
    (h : AtLeastAsGood q g c) : g.entry.relev * q.weight ≤ c.relev := by
  rcases h with h | h
  · exact h.le
  · exact h.1.le

/-- Without collapsing, where nothing is missing around the phrase match. -/
theorem tree_alone (o : IterOrder) (b : Builder) (hb : b.Wf) (db : SMap Bytes Bytes)
    (hfin : finish o b = some db) (hsmall : SmallRecords db)
    {env : TreeEnv} {sm : ℕ} {pms : List Subquery} {t : StackTree}
    {opts : MatchOpts} {out : List Context} (h : stackableWith sm pms = some t)
    (hnd : pms.Nodup) (hscans : ∃ l : List (List Subquery), l.Nodup ∧
      (∀ qs ∈ l, qs ≠ [] ∧ IsStack pms qs) ∧ scansOf t = lastScans l)
    (hids : IdsUnique pms) (hone : OneOwner pms)
    (hz : env.chk = true ∨ ZoomsAscend pms)
    (hout : treeCoalesce env t opts = some out)
    {q : Subquery} (hwhole : Whole pms t [q]) (hstack : IsStack pms [q])
    (halone : ¬ Extendable pms [q])
    (hs : q.store.db = db) {kg : KeyWithId} (hk : kg ∈ q.matchKeys)
    (hroom : RoomInStacks pms (q, kg))
    (hst : kg.key.phrase.start < 2 ^ 32) {opts' : MatchOpts}
    (hlook : lookupOpts env.toEnv opts q kg = some opts') (ho : OptsWf opts')
    (hn : NumbersOk opts' q.store.radius)
    (hwv : q.weight.Valid) (hlo : .fin (1 / 2 ^ 40) ≤ q.weight) (hhi : q.weight ≤ 1)
    {grids : List MatchEntry} (hg : env.query q.store kg.key opts' 80 = some grids)
    (hlang : SameSide opts' q.store.radius grids)
    (hzero : ∀ g, grids.head? = some g → g.entry.id ≠ 0 ∨ 0 < g.scoredist)
    {g : MatchEntry} (hgm : g ∈ grids)
    (hclose : ∀ g' ∈ grids, F64.flt (g'.entry.relev * q.weight - g.entry.relev * q.weight)
      (lit 0.25) = true) :
    NotLost q opts' grids g out (fun r c => ContextOf env.toEnv opts pms [⟨q, kg, r⟩] c) ∨
    AloneDropped q kg out ∨ (out.length = 800 ∧ (WeightsOk pms →
      ∀ r ∈ out, g.entry.relev * q.weight ≤ r.relev)) := by
  have hmax := (C42_bounded_sorted hout).1
  obtain ⟨l, hl1, hl2, hl3⟩ := hscans
  have hroom' : RoomToTryFor (scansOf t) (q, kg) := by
    rw [hl3]
    exact hroom l hl1 hl2
  -- the node
  obtain ⟨ls, hls, hp, hpm⟩ := levels_of_hits (hs := [⟨q, kg, g⟩]) h hnd hstack hwhole.1
  obtain ⟨lv, rfl, hlv⟩ := map_eq_one hls
  obtain ⟨node, q', kg', g'⟩ := lv
  have hq' : q' = q := congrArg Hit.q hlv
  have hq : node.pm = some q := by
    rw [← hq']
    exact hpm _ List.mem_cons_self
  have hp : TreePath t t.root [node] := hp
  have hch : node.children = [] := by
    by_contra hne
    exact halone ((children_iff h hnd hwhole hp hq).1 hne)
  have hqm := hstack.mem q (by simp)
  obtain ⟨s₀, s, h1, h2, rfl⟩ := treeCoalesce_some hout
  have hperm := env.contexts.intoVecDesc_perm s.contexts
  have hr : RunOk env t opts pms := ⟨⟨sm, h⟩, hids, hz⟩
  rw [hperm.length_eq] at hmax
  have full : maxResults ≤ s.contexts.length → (env.contexts.intoVecDesc s.contexts).length = 800 := by
    intro hge
    rw [hperm.length_eq]
    exact le_antisymm hmax hge
  have hof : ∀ r ∈ grids, ContextOf env.toEnv opts pms [⟨q, kg, r⟩]
      (singleContext (toEntry r q kg.id)) := fun r hr' =>
    (stackedFrom_iff h hnd (ls := [⟨node, q, kg, r⟩]) hwhole hp (by simpa using hq)).1
      (single_stacked hp hch ⟨hq, hk, opts', grids, hlook, hg, hr'⟩)
  rcases treeLoop_alone hr (C32_tree_shape h) hone hroom' hp hq hch hqm hk h1 h2 with
    (⟨o₂, grids₂, all, e1, e2, e3, hsub⟩ | hdr) | ⟨hge, hb⟩
  rotate_left
  · exact Or.inr (Or.inl (hdr.mono hperm.symm.subperm))
  · refine Or.inr (Or.inr ⟨full hge, fun hw r hrr => ?_⟩)
    exact (through_bound h hids hz hw (single_stacked (env := env) (opts := opts) (q := q)
      (kg := kg) (g := g) hp hch ⟨hq, hk, opts', grids, hlook, hg, hgm⟩) (n := node)
      (by simp)).trans (hb r (hperm.mem_iff.1 hrr))
  rw [hlook] at e1
  cases e1
  rw [hg] at e2
  cases e2
  have hout' : ∀ (part : List Context) (c : Context),
      part.Subperm (cpqPushAll env.contexts maxContexts [] all) →
      (∀ r ∈ part, c.sortKey ≤ r.sortKey) →
      part.Subperm (env.contexts.intoVecDesc s.contexts) ∨
        ((env.contexts.intoVecDesc s.contexts).length = 800 ∧
          ∀ r ∈ env.contexts.intoVecDesc s.contexts, c.relev ≤ r.relev) := by
    intro part c h1 h2
    rcases hsub part _ h1 h2 with h | h
    · exact Or.inl (h.trans hperm.symm.subperm)
    · exact Or.inr ⟨full h.1, fun r hr => h.relev r (hperm.mem_iff.1 hr)⟩
  have hone : ∀ c ∈ cpqPushAll env.contexts maxContexts [] all, AtLeastAsGood q g c →
      c ∈ env.contexts.intoVecDesc s.contexts ∨
        ((env.contexts.intoVecDesc s.contexts).length = 800 ∧ (WeightsOk pms →
          ∀ r ∈ env.contexts.intoVecDesc s.contexts, g.entry.relev * q.weight ≤ r.relev)) := by
    intro c hc hgood
    rcases hout' [c] c (List.singleton_subperm_iff.2 hc) (by simp) with h | ⟨h, h'⟩
    · exact Or.inl (List.singleton_subperm_iff.1 h)
    · exact Or.inr ⟨h, fun _ r hr => hgood.relev.trans (h' r hr)⟩
  unfold treeSingle at e3
  simp only [Option.bind_eq_bind, Option.bind_eq_some_iff] at e3
  obtain ⟨st, hloop, e3⟩ := e3
  cases e3
  obtain ⟨hfrom, hset⟩ := single_settles o b hb db hfin hsmall env.toEnv q hs kg.key kg.id hst opts'
    ho hn hwv hlo hhi grids hg hlang hzero hloop g hgm hclose
  have hmem : ∀ c, c ∈ singleById st.coalesced ↔ ∃ p ∈ st.coalesced, singleContext p.2 = c := by
    intro c
    unfold singleById
    rw [List.mem_map]
    constructor
    · rintro ⟨p, hp, rfl⟩
      exact ⟨p, (List.perm_insertionSort _ _).mem_iff.1 hp, rfl⟩
    · rintro ⟨p, hp, rfl⟩
      exact ⟨p, (List.perm_insertionSort _ _).mem_iff.2 hp, rfl⟩
  obtain ⟨rest, hbest⟩ := C28_queue_keeps_best env.contexts maxContexts (singleById st.coalesced)
  have hkept : ∀ c ∈ cpqPushAll env.contexts maxContexts [] (singleById st.coalesced),
      ∃ p ∈ st.coalesced, ∃ r ∈ grids, p.2 = toEntry r q kg.id ∧ c = singleContext p.2 := by
    intro c hc
    obtain ⟨p, hp, rfl⟩ := (hmem c).1 (hbest.perm.mem_iff.1 (List.mem_append_left _ hc))
    obtain ⟨r, hr', e, _⟩ := hfrom p hp
    exact ⟨p, hp, r, hr', e, rfl⟩
  rcases hset with ⟨v, hv, hvr⟩ | ⟨hchg, hne, hrank⟩
  · have hvm := HMap.mem_of_find hv
    obtain ⟨r, hr', e, hid⟩ := hfrom _ hvm
    have hgood : AtLeastAsGood q g (singleContext v) := goodness_of_rank hvr
    have e : v = toEntry r q kg.id := e
    have hid : r.entry.id = g.entry.id := hid
    rcases List.mem_append.1 (hbest.perm.mem_iff.2 ((hmem _).2 ⟨_, hvm, rfl⟩)) with hin | hin
    · rcases hone _ hin hgood with hin | hfull
      swap
      · exact Or.inr (Or.inr hfull)
      refine Or.inl (Or.inl ⟨_, hin, r, hr', hid, ?_, hgood⟩)
      show ContextOf _ _ _ _ (singleContext v)
      rw [e]
      exact hof r hr'
    · rcases hout' _ (singleContext v) (List.Subperm.refl _)
        (fun r hr => hbest.best _ hr _ hin) with hsub' | ⟨hf1, hf2⟩
      swap
      · exact Or.inr (Or.inr ⟨hf1, fun _ r hr => hgood.relev.trans (hf2 r hr)⟩)
      refine Or.inl (Or.inr (Or.inl ⟨_, hsub', ?_, fun c hc => ?_⟩))
      · have g1 := hbest.perm.length_eq
        have g2 := hbest.size
        have g3 := List.length_pos_of_mem hin
        rw [List.length_append] at g1
        have g4 : maxContexts = 40 := rfl
        omega
      · obtain ⟨p, hp', r', hr'', e', rfl⟩ := hkept c hc
        refine ⟨⟨r', hr'', ?_⟩, hgood.trans (bestFirst_of_sortKey (hbest.best _ hc _ hin))⟩
        rw [e']
        exact hof r' hr''
  · have hne' : cpqPushAll env.contexts maxContexts [] (singleById st.coalesced) ≠ [] := by
      intro h0
      have g2 := hbest.size
      rw [h0] at g2
      obtain ⟨p, hp'⟩ := List.exists_mem_of_ne_nil _ hne
      have := List.length_pos_of_mem ((hmem _).2 ⟨p, hp', rfl⟩)
      have g4 : maxContexts = 40 := rfl
      simp only [List.length_nil] at g2
      omega
    obtain ⟨c, hc⟩ := List.exists_mem_of_ne_nil _ hne'
    obtain ⟨p, hp', r', hr'', e', rfl⟩ := hkept c hc
    have hrk := hrank p hp'
    rcases hone _ hc (goodness_of_rank hrk.1) with hc | hfull
    swap
    · exact Or.inr (Or.inr hfull)
    refine Or.inl (Or.inr (Or.inr ⟨by rw [List.map_map] at hchg; exact hchg, _, hc, ⟨r', hr'', ?_⟩,
      goodness_of_rank hrk.1, fun hpr => better_of_rank (hrk.2 ?_)⟩))
    · show ContextOf _ _ _ _ (singleContext p.2)
      rw [e']
      exact hof r' hr''
    · cases hx : opts'.proximity with
      | none => exact absurd hx hpr
      | some _ => rfl

/-- What becomes of a phrase match that stands alone when the quotas are enough for it and nothing is
missing around it. -/
theorem groups_alone_tree (o : IterOrder) (b : Builder) (hb : b.Wf) (db : SMap Bytes Bytes)
    (hfin : finish o b = some db) (hsmall : SmallRecords db)
    {env : TreeEnv} {sm : ℕ} {qs collapsed : List Subquery} {t : StackTree} {opts : MatchOpts}
    {out : List Context} {rep : Subquery → Subquery} {orig : Subquery → KeyWithId → Subquery}
    {grp : Subquery → Subquery} (hd : Delivered qs) (hr : Regroups qs collapsed rep orig grp)
    (h2 : stackableWith sm collapsed = some t) (hscans : ∃ l : List (List Subquery), l.Nodup ∧
      (∀ qs ∈ l, qs ≠ [] ∧ IsStack collapsed qs) ∧ scansOf t = lastScans l)
    (hz : env.chk = true ∨ ZoomsAscend qs) (hout : treeCoalesce env t opts = some out)
    {q : Subquery} (hwhole : Whole collapsed t [grp q]) (hstack : IsStack qs [q]) (halone : ¬ Extendable qs [q])
    (hs : q.store.db = db) {kg : KeyWithId} (hk : kg ∈ q.matchKeys)
    (hroom : RoomInGroups qs (q, kg))
    (hst : kg.key.phrase.start < 2 ^ 32) {opts' : MatchOpts}
    (hlook : lookupOpts env.toEnv opts q kg = some opts') (ho : OptsWf opts')
    (hn : NumbersOk opts' q.store.radius)
    (hwv : q.weight.Valid) (hlo : .fin (1 / 2 ^ 40) ≤ q.weight) (hhi : q.weight ≤ 1)
    {grids : List MatchEntry} (hg : env.query q.store kg.key opts' 80 = some grids)
    (hlang : SameSide opts' q.store.radius grids)
    (hzero : ∀ g, grids.head? = some g → g.entry.id ≠ 0 ∨ 0 < g.scoredist)
    {g : MatchEntry} (hgm : g ∈ grids)
    (hclose : ∀ g' ∈ grids, F64.flt (g'.entry.relev * q.weight - g.entry.relev * q.weight)
      (lit 0.25) = true) :
    NotLost q opts' grids g out (fun r c => ContextOf env.toEnv opts qs [⟨q, kg, r⟩] c) ∨
    AloneDropped q kg out ∨ (out.length = 800 ∧ (WeightsOk qs →
      ∀ r ∈ out, g.entry.relev * q.weight ≤ r.relev)) := by
  have hqm := hstack.mem q (by simp)
  obtain ⟨g1, g2, g3⟩ := hr.grp_mem q hqm
  have hone : OneOwner collapsed := by
    intro a ha b hb k hk l hl hid
    obtain ⟨i1, i2, i3⟩ := hr.orig_mem a ha k hk
    obtain ⟨i4, i5, i6⟩ := hr.orig_mem b hb l hl
    obtain ⟨e1, e2⟩ := delivered_inj hd i1 i4 (i3 ▸ List.mem_singleton_self k)
      (i6 ▸ List.mem_singleton_self l) hid
    refine ⟨hr.inj a ha b hb (groupKey_of_bare ?_), e2⟩
    rw [← i2, ← i5, e1]
  have hb1 : ∀ r : MatchEntry, ([⟨grp q, kg, r⟩] : List Hit).map Hit.bare =
      ([⟨q, kg, r⟩] : List Hit).map Hit.bare := by
    intro r
    show ([{ (⟨q, kg, r⟩ : Hit) with q := bare (grp q) }] : List Hit) = [{ (⟨q, kg, r⟩ : Hit) with q := bare q }]
    rw [g2]
  have back : ∀ r c, ContextOf env.toEnv opts collapsed [⟨grp q, kg, r⟩] c →
      ContextOf env.toEnv opts qs [⟨q, kg, r⟩] c := fun r c =>
    contextOf_move hr.covers hr.covers' (hb1 r).symm (by simpa using g1) (by simpa using hqm)
      (by simpa using hk)
  have hstore : (grp q).store = q.store := store_of_bare g2
  have hweight : (grp q).weight = q.weight := by
    have : (bare (grp q)).weight = (bare q).weight := by rw [g2]
    exact this
  have key := tree_alone o b hb db hfin hsmall (q := grp q) (kg := kg) (g := g) (grids := grids)
    (opts' := opts') h2 hr.nodup hscans (hr.idsUnique hd) hone
    (hz.imp_right hr.zooms) hout hwhole
    (isStack_move (pms := qs) (qs := [q]) (by simp [g2]) (by simpa using g1) hstack)
    (fun hx => halone ((extendable_one hr.covers' hr.covers (h := ⟨q, kg, g⟩)
      (h' := ⟨grp q, kg, g⟩) (List.singleton_injective (hb1 g)) hqm g1).2 hx))
    (by rw [hstore]; exact hs) (g3 _ hk)
    (hr.room (x := (grp q, kg)) (y := (q, kg)) g2 rfl hroom) hst
    (by unfold lookupOpts at hlook ⊢; rw [hstore]; exact hlook) ho (by rw [hstore]; exact hn)
    (by rw [hweight]; exact hwv) (by rw [hweight]; exact hlo) (by rw [hweight]; exact hhi)
    (by rw [hstore]; exact hg) (by rw [hstore]; exact hlang) hzero hgm (by rw [hweight]; exact hclose)
  have hgood : ∀ c, AtLeastAsGood (grp q) g c → AtLeastAsGood q g c := by
    intro c hc
    unfold AtLeastAsGood at hc ⊢
    rwa [hweight] at hc
  have hbetter : ∀ c, Better (grp q) g c → Better q g c := by
    intro c hc
    unfold Better at hc ⊢
    rwa [hweight] at hc
  rcases key with (⟨c, hc, r, hr', hid, hof, hgd⟩ | ⟨better, b1, b2, b3⟩ |
    ⟨hchg, c, hc, ⟨r, hr', hof⟩, hgd, hbt⟩) | ⟨⟨p1, p2, p3⟩, p4⟩ | ⟨p1, p2⟩
  · exact Or.inl <| Or.inl ⟨c, hc, r, hr', hid, back r c hof, hgood c hgd⟩
  · refine Or.inl <| Or.inr (Or.inl ⟨better, b1, b2, fun c hc => ?_⟩)
    obtain ⟨⟨r, hr', hof⟩, hgd⟩ := b3 c hc
    exact ⟨⟨r, hr', back r c hof⟩, hgood c hgd⟩
  · exact Or.inl <| Or.inr (Or.inr ⟨hchg, c, hc, ⟨r, hr', back r c hof⟩, hgood c hgd, fun h =>
      hbetter c (hbt h)⟩)
  · refine Or.inr <| Or.inl ⟨⟨p1, ?_, ?_⟩, ?_⟩
    · unfold CoversOne at p2 ⊢
      simp only at p2 ⊢
      rwa [mask_of_bare g2] at p2
    · simp only at p3 ⊢
      rwa [hstore] at p3
    · rwa [hweight] at p4
  · rw [hweight] at p2
    exact Or.inr <| Or.inr ⟨p1, fun hw => p2 (hr.weightsOk hw)⟩

/-- What becomes of a phrase match that stands alone when the quotas are enough for it. -/
theorem groups_alone (o : IterOrder) (b : Builder) (hb : b.Wf) (db : SMap Bytes Bytes)
    (hfin : finish o b = some db) (hsmall : SmallRecords db)
    {env : TreeEnv} {qs : List Subquery} {opts : MatchOpts} {out : List Context}
    (hd : Delivered qs) (hfew : FewGroupStacks 2000 qs) (hz : env.chk = true ∨ ZoomsAscend qs)
    (hout : stackAndCoalesce env qs opts = some out)
    {q : Subquery} (hstack : IsStack qs [q]) (halone : ¬ Extendable qs [q])
    (hs : q.store.db = db) {kg : KeyWithId} (hk : kg ∈ q.matchKeys)
    (hroom : RoomInGroups qs (q, kg))
    (hst : kg.key.phrase.start < 2 ^ 32) {opts' : MatchOpts}
    (hlook : lookupOpts env.toEnv opts q kg = some opts') (ho : OptsWf opts')
    (hn : NumbersOk opts' q.store.radius)
    (hwv : q.weight.Valid) (hlo : .fin (1 / 2 ^ 40) ≤ q.weight) (hhi : q.weight ≤ 1)
    {grids : List MatchEntry} (hg : env.query q.store kg.key opts' 80 = some grids)
    (hlang : SameSide opts' q.store.radius grids)
    (hzero : ∀ g, grids.head? = some g → g.entry.id ≠ 0 ∨ 0 < g.scoredist)
    {g : MatchEntry} (hgm : g ∈ grids)
    (hclose : ∀ g' ∈ grids, F64.flt (g'.entry.relev * q.weight - g.entry.relev * q.weight)
      (lit 0.25) = true) :
    NotLost q opts' grids g out (fun r c => ContextOf env.toEnv opts qs [⟨q, kg, r⟩] c) ∨
    AloneDropped q kg out ∨ (out.length = 800 ∧ (WeightsOk qs →
      ∀ r ∈ out, g.entry.relev * q.weight ≤ r.relev)) := by
  unfold stackAndCoalesce at hout
  obtain ⟨collapsed, h1, hout⟩ := Option.bind_eq_some_iff.1 hout
  obtain ⟨t, h2, hout⟩ := Option.bind_eq_some_iff.1 hout
  obtain ⟨rep, orig, grp, hr⟩ := collapse_regroups hd h1
  obtain ⟨hlim, hscans⟩ := few_below_limit h2 hr.nodup (hr.fewStacks hfew)
  exact groups_alone_tree o b hb db hfin hsmall hd hr h2 hscans hz hout (whole_of_lim h2 hlim _) hstack
    halone hs hk hroom hst hlook ho hn hwv hlo hhi hg hlang hzero hgm hclose

/-- The same for any number of stacks. -/
theorem groups_alone_any (o : IterOrder) (b : Builder) (hb : b.Wf) (db : SMap Bytes Bytes)
    (hfin : finish o b = some db) (hsmall : SmallRecords db)
    {env : TreeEnv} {qs : List Subquery} {opts : MatchOpts} {out : List Context}
    (hd : Delivered qs) (hw : WeightsOk qs) (hf : FewTypes qs)
    (hz : env.chk = true ∨ ZoomsAscend qs)
    (hout : stackAndCoalesce env qs opts = some out)
    {q : Subquery} (hnc : ¬ Crowded 2000 qs [q]) (hstack : IsStack qs [q]) (halone : ¬ Extendable qs [q])
    (hs : q.store.db = db) {kg : KeyWithId} (hk : kg ∈ q.matchKeys)
    (hroom : RoomInGroups qs (q, kg))
    (hst : kg.key.phrase.start < 2 ^ 32) {opts' : MatchOpts}
    (hlook : lookupOpts env.toEnv opts q kg = some opts') (ho : OptsWf opts')
    (hn : NumbersOk opts' q.store.radius)
    (hwv : q.weight.Valid) (hlo : .fin (1 / 2 ^ 40) ≤ q.weight) (hhi : q.weight ≤ 1)
    {grids : List MatchEntry} (hg : env.query q.store kg.key opts' 80 = some grids)
    (hlang : SameSide opts' q.store.radius grids)
    (hzero : ∀ g, grids.head? = some g → g.entry.id ≠ 0 ∨ 0 < g.scoredist)
    {g : MatchEntry} (hgm : g ∈ grids)
    (hclose : ∀ g' ∈ grids, F64.flt (g'.entry.relev * q.weight - g.entry.relev * q.weight)
      (lit 0.25) = true) :
    NotLost q opts' grids g out (fun r c => ContextOf env.toEnv opts qs [⟨q, kg, r⟩] c) ∨
    AloneDropped q kg out ∨ (out.length = 800 ∧ (WeightsOk qs →
      ∀ r ∈ out, g.entry.relev * q.weight ≤ r.relev)) := by
  unfold stackAndCoalesce at hout
  obtain ⟨collapsed, h1, hout⟩ := Option.bind_eq_some_iff.1 hout
  obtain ⟨t, h2, hout⟩ := Option.bind_eq_some_iff.1 hout
  obtain ⟨rep, orig, grp, hr⟩ := collapse_regroups hd h1
  have hscans := scans_of_stacks h2 hr.nodup fun q hq =>
    ⟨(hr.weightsOk hw q hq).1, (hr.fewTypes hf).weights q hq⟩
  refine groups_alone_tree o b hb db hfin hsmall hd hr h2 hscans hz hout ?_ hstack
    halone hs hk hroom hst hlook ho hn hwv hlo hhi hg hlang hzero hgm hclose
  by_contra hwh
  refine hnc (hr.crowded h2 hw hf (xs := [grp q]) ?_ hwh)
  simp [(hr.grp_mem q (hstack.mem q (by simp))).2.1]

/-- C69. A phrase match nothing can be put below is not lost by `stack_and_coalesce` when there is
room: take one of the first 80 results for it that is less than 0.25 below the best of them. Its
feature is returned in a context of this phrase match that is at least as good; or 40 contexts of
this phrase match are returned that are all at least as good; or the feature id changes more than
80 times along these results, and a context of this phrase match is returned that is at least as
good, and better if there is a proximity point. The conditions on the results are those of C62. -/
theorem C69_alone_not_lost (o : IterOrder) (b : Builder) (hb : b.Wf) (db : SMap Bytes Bytes)
    (hfin : finish o b = some db) (hsmall : SmallRecords db)
    {env : TreeEnv} {qs : List Subquery} {opts : MatchOpts} {out : List Context}
    (hd : Delivered qs) (hfew : FewGroupStacks 2000 qs) (hz : env.chk = true ∨ ZoomsAscend qs)
    (hroom : RoomForGroups qs) (hout : stackAndCoalesce env qs opts = some out)
    (hlen : out.length < 800)
    {q : Subquery} (hstack : IsStack qs [q]) (halone : ¬ Extendable qs [q])
    (hs : q.store.db = db) {kg : KeyWithId} (hk : kg ∈ q.matchKeys)
    (hst : kg.key.phrase.start < 2 ^ 32) {opts' : MatchOpts}
    (hlook : lookupOpts env.toEnv opts q kg = some opts') (ho : OptsWf opts')
    (hn : NumbersOk opts' q.store.radius)
    (hwv : q.weight.Valid) (hlo : .fin (1 / 2 ^ 40) ≤ q.weight) (hhi : q.weight ≤ 1)
    {grids : List MatchEntry} (hg : env.query q.store kg.key opts' 80 = some grids)
    (hlang : SameSide opts' q.store.radius grids)
    (hzero : ∀ g, grids.head? = some g → g.entry.id ≠ 0 ∨ 0 < g.scoredist)
    {g : MatchEntry} (hgm : g ∈ grids)
    (hclose : ∀ g' ∈ grids, F64.flt (g'.entry.relev * q.weight - g.entry.relev * q.weight)
      (lit 0.25) = true) :
    (∃ c ∈ out, ∃ r ∈ grids, r.entry.id = g.entry.id ∧
      ContextOf env.toEnv opts qs [⟨q, kg, r⟩] c ∧ AtLeastAsGood q g c) ∨
    (∃ better : List Context, better.Subperm out ∧ better.length = 40 ∧ ∀ c ∈ better,
      (∃ r ∈ grids, ContextOf env.toEnv opts qs [⟨q, kg, r⟩] c) ∧ AtLeastAsGood q g c) ∨
    (80 < idChanges 0 (grids.map (·.entry.id)) ∧
      ∃ c ∈ out, (∃ r ∈ grids, ContextOf env.toEnv opts qs [⟨q, kg, r⟩] c) ∧
        AtLeastAsGood q g c ∧ (opts'.proximity ≠ none → Better q g c)) := by
  refine (groups_alone o b hb db hfin hsmall hd hfew hz hout hstack halone hs hk
    (hroom.toTry.for _) hst
    hlook ho hn hwv hlo hhi hg hlang hzero hgm hclose).resolve_right ?_
  rintro (⟨⟨p1, p2, p3⟩, -⟩ | ⟨hfull, -⟩)
  swap
  · omega
  have := (hroom [[q]] (by simp) (by
    intro l hl
    rw [List.mem_singleton.1 hl]
    exact ⟨by simp, hstack⟩)).worth (q, kg)
    (by unfold lastScans; simpa using hk) p1 p2
  simp only at this p3
  omega

/-- C75. The same without the rule that slow scans do not occur: there is one more case, that the scan
is wide, for one token and in an index of zoom 14 or more, and then something is returned that has
a third more relevance than the weight of the phrase match, so than any context of it. -/
theorem C75_alone (o : IterOrder) (b : Builder) (hb : b.Wf) (db : SMap Bytes Bytes)
    (hfin : finish o b = some db) (hsmall : SmallRecords db)
    {env : TreeEnv} {qs : List Subquery} {opts : MatchOpts} {out : List Context}
    (hd : Delivered qs) (hfew : FewGroupStacks 2000 qs) (hz : env.chk = true ∨ ZoomsAscend qs)
    (hroom : RoomToTryGroups qs) (hout : stackAndCoalesce env qs opts = some out)
    (hlen : out.length < 800)
    {q : Subquery} (hstack : IsStack qs [q]) (halone : ¬ Extendable qs [q])
    (hs : q.store.db = db) {kg : KeyWithId} (hk : kg ∈ q.matchKeys)
    (hst : kg.key.phrase.start < 2 ^ 32) {opts' : MatchOpts}
    (hlook : lookupOpts env.toEnv opts q kg = some opts') (ho : OptsWf opts')
    (hn : NumbersOk opts' q.store.radius)
    (hwv : q.weight.Valid) (hlo : .fin (1 / 2 ^ 40) ≤ q.weight) (hhi : q.weight ≤ 1)
    {grids : List MatchEntry} (hg : env.query q.store kg.key opts' 80 = some grids)
    (hlang : SameSide opts' q.store.radius grids)
    (hzero : ∀ g, grids.head? = some g → g.entry.id ≠ 0 ∨ 0 < g.scoredist)
    {g : MatchEntry} (hgm : g ∈ grids)
    (hclose : ∀ g' ∈ grids, F64.flt (g'.entry.relev * q.weight - g.entry.relev * q.weight)
      (lit 0.25) = true) :
    (∃ c ∈ out, ∃ r ∈ grids, r.entry.id = g.entry.id ∧
      ContextOf env.toEnv opts qs [⟨q, kg, r⟩] c ∧ AtLeastAsGood q g c) ∨
    (∃ better : List Context, better.Subperm out ∧ better.length = 40 ∧ ∀ c ∈ better,
      (∃ r ∈ grids, ContextOf env.toEnv opts qs [⟨q, kg, r⟩] c) ∧ AtLeastAsGood q g c) ∨
    (80 < idChanges 0 (grids.map (·.entry.id)) ∧
      ∃ c ∈ out, (∃ r ∈ grids, ContextOf env.toEnv opts qs [⟨q, kg, r⟩] c) ∧
        AtLeastAsGood q g c ∧ (opts'.proximity ≠ none → Better q g c)) ∨
    (SlowScan (q, kg) ∧ ∃ b ∈ out, q.weight ≤ lit 0.75 * b.relev) := by
  rcases groups_alone o b hb db hfin hsmall hd hfew hz hout hstack halone hs hk
    (hroom.for _) hst
    hlook ho hn hwv hlo hhi hg hlang hzero hgm hclose with (h | h | h) | ⟨h, h'⟩ | ⟨h, -⟩
  · exact Or.inl h
  · exact Or.inr (Or.inl h)
  · exact Or.inr (Or.inr (Or.inl h))
  · refine Or.inr (Or.inr (Or.inr ⟨h, h' ?_ hwv ?_⟩))
    · exact isFin_of_between (b := 1) trivial (le_trans (by decide +kernel) hlo) hhi
    · exact lt_of_lt_of_le (by decide +kernel) hlo
  · omega

/-- C78. The same for any number of results, where only the quotas the scan counts against need to be
enough: there is one more case, that 800 contexts are returned and none of them has less relevance
than this result. -/
theorem C78_alone (o : IterOrder) (b : Builder) (hb : b.Wf) (db : SMap Bytes Bytes)
    (hfin : finish o b = some db) (hsmall : SmallRecords db)
    {env : TreeEnv} {qs : List Subquery} {opts : MatchOpts} {out : List Context}
    (hd : Delivered qs) (hfew : FewGroupStacks 2000 qs) (hz : env.chk = true ∨ ZoomsAscend qs)
    (hout : stackAndCoalesce env qs opts = some out)
    (hw : WeightsOk qs)
    {q : Subquery} (hstack : IsStack qs [q]) (halone : ¬ Extendable qs [q])
    (hs : q.store.db = db) {kg : KeyWithId} (hk : kg ∈ q.matchKeys)
    (hroom : RoomInGroups qs (q, kg))
    (hst : kg.key.phrase.start < 2 ^ 32) {opts' : MatchOpts}
    (hlook : lookupOpts env.toEnv opts q kg = some opts') (ho : OptsWf opts')
    (hn : NumbersOk opts' q.store.radius)
    (hwv : q.weight.Valid) (hlo : .fin (1 / 2 ^ 40) ≤ q.weight) (hhi : q.weight ≤ 1)
    {grids : List MatchEntry} (hg : env.query q.store kg.key opts' 80 = some grids)
    (hlang : SameSide opts' q.store.radius grids)
    (hzero : ∀ g, grids.head? = some g → g.entry.id ≠ 0 ∨ 0 < g.scoredist)
    {g : MatchEntry} (hgm : g ∈ grids)
    (hclose : ∀ g' ∈ grids, F64.flt (g'.entry.relev * q.weight - g.entry.relev * q.weight)
      (lit 0.25) = true) :
    (∃ c ∈ out, ∃ r ∈ grids, r.entry.id = g.entry.id ∧
      ContextOf env.toEnv opts qs [⟨q, kg, r⟩] c ∧ AtLeastAsGood q g c) ∨
    (∃ better : List Context, better.Subperm out ∧ better.length = 40 ∧ ∀ c ∈ better,
      (∃ r ∈ grids, ContextOf env.toEnv opts qs [⟨q, kg, r⟩] c) ∧ AtLeastAsGood q g c) ∨
    (80 < idChanges 0 (grids.map (·.entry.id)) ∧
      ∃ c ∈ out, (∃ r ∈ grids, ContextOf env.toEnv opts qs [⟨q, kg, r⟩] c) ∧
        AtLeastAsGood q g c ∧ (opts'.proximity ≠ none → Better q g c)) ∨
    (SlowScan (q, kg) ∧ ∃ b ∈ out, q.weight ≤ lit 0.75 * b.relev) ∨
    (out.length = 800 ∧ ∀ r ∈ out, g.entry.relev * q.weight ≤ r.relev) := by
  rcases groups_alone o b hb db hfin hsmall hd hfew hz hout hstack halone hs hk
    hroom hst
    hlook ho hn hwv hlo hhi hg hlang hzero hgm hclose with (h | h | h) | ⟨h, h'⟩ | ⟨h, h'⟩
  · exact Or.inl h
  · exact Or.inr (Or.inl h)
  · exact Or.inr (Or.inr (Or.inl h))
  · refine Or.inr (Or.inr (Or.inr (Or.inl ⟨h, h' ?_ hwv ?_⟩)))
    · exact isFin_of_between (b := 1) trivial (le_trans (by decide +kernel) hlo) hhi
    · exact lt_of_lt_of_le (by decide +kernel) hlo
  · exact Or.inr (Or.inr (Or.inr (Or.inr ⟨h, h' hw⟩)))

/-- C79. The same for any number of stacks: there is one more case, that 2000 stacks are at least about
as good as the phrase match. -/
theorem C79_alone (o : IterOrder) (b : Builder) (hb : b.Wf) (db : SMap Bytes Bytes)
    (hfin : finish o b = some db) (hsmall : SmallRecords db)
    {env : TreeEnv} {qs : List Subquery} {opts : MatchOpts} {out : List Context}
    (hd : Delivered qs) (hf : FewTypes qs) (hz : env.chk = true ∨ ZoomsAscend qs)
    (hout : stackAndCoalesce env qs opts = some out)
    (hw : WeightsOk qs)
    {q : Subquery} (hstack : IsStack qs [q]) (halone : ¬ Extendable qs [q])
    (hs : q.store.db = db) {kg : KeyWithId} (hk : kg ∈ q.matchKeys)
    (hroom : RoomInGroups qs (q, kg))
    (hst : kg.key.phrase.start < 2 ^ 32) {opts' : MatchOpts}
    (hlook : lookupOpts env.toEnv opts q kg = some opts') (ho : OptsWf opts')
    (hn : NumbersOk opts' q.store.radius)
    (hwv : q.weight.Valid) (hlo : .fin (1 / 2 ^ 40) ≤ q.weight) (hhi : q.weight ≤ 1)
    {grids : List MatchEntry} (hg : env.query q.store kg.key opts' 80 = some grids)
    (hlang : SameSide opts' q.store.radius grids)
    (hzero : ∀ g, grids.head? = some g → g.entry.id ≠ 0 ∨ 0 < g.scoredist)
    {g : MatchEntry} (hgm : g ∈ grids)
    (hclose : ∀ g' ∈ grids, F64.flt (g'.entry.relev * q.weight - g.entry.relev * q.weight)
      (lit 0.25) = true) :
    (∃ c ∈ out, ∃ r ∈ grids, r.entry.id = g.entry.id ∧
      ContextOf env.toEnv opts qs [⟨q, kg, r⟩] c ∧ AtLeastAsGood q g c) ∨
    (∃ better : List Context, better.Subperm out ∧ better.length = 40 ∧ ∀ c ∈ better,
      (∃ r ∈ grids, ContextOf env.toEnv opts qs [⟨q, kg, r⟩] c) ∧ AtLeastAsGood q g c) ∨
    (80 < idChanges 0 (grids.map (·.entry.id)) ∧
      ∃ c ∈ out, (∃ r ∈ grids, ContextOf env.toEnv opts qs [⟨q, kg, r⟩] c) ∧
        AtLeastAsGood q g c ∧ (opts'.proximity ≠ none → Better q g c)) ∨
    (SlowScan (q, kg) ∧ ∃ b ∈ out, q.weight ≤ lit 0.75 * b.relev) ∨
    (out.length = 800 ∧ ∀ r ∈ out, g.entry.relev * q.weight ≤ r.relev) ∨
    Crowded 2000 qs [q] := by
  by_cases hnc : Crowded 2000 qs [q]
  · exact Or.inr (Or.inr (Or.inr (Or.inr (Or.inr hnc))))
  rcases groups_alone_any o b hb db hfin hsmall hd hw hf hz hout hnc hstack halone hs hk
    hroom hst
    hlook ho hn hwv hlo hhi hg hlang hzero hgm hclose with (h | h | h) | ⟨h, h'⟩ | ⟨h, h'⟩
  · exact Or.inl h
  · exact Or.inr (Or.inl h)
  · exact Or.inr (Or.inr (Or.inl h))
  · refine Or.inr (Or.inr (Or.inr (Or.inl ⟨h, h' ?_ hwv ?_⟩)))
    · exact isFin_of_between (b := 1) trivial (le_trans (by decide +kernel) hlo) hhi
    · exact lt_of_lt_of_le (by decide +kernel) hlo
  · exact Or.inr (Or.inr (Or.inr (Or.inr (Or.inl ⟨h, h' hw⟩))))

/-- C76. The same for any number of results: there is one more case, that 800 contexts are returned and
none of them has less relevance than this result. -/
theorem C76_alone (o : IterOrder) (b : Builder) (hb : b.Wf) (db : SMap Bytes Bytes)
    (hfin : finish o b = some db) (hsmall : SmallRecords db)
    {env : TreeEnv} {qs : List Subquery} {opts : MatchOpts} {out : List Context}
    (hd : Delivered qs) (hfew : FewGroupStacks 2000 qs) (hz : env.chk = true ∨ ZoomsAscend qs)
    (hroom : RoomToTryGroups qs) (hout : stackAndCoalesce env qs opts = some out)
    (hw : WeightsOk qs)
    {q : Subquery} (hstack : IsStack qs [q]) (halone : ¬ Extendable qs [q])
    (hs : q.store.db = db) {kg : KeyWithId} (hk : kg ∈ q.matchKeys)
    (hst : kg.key.phrase.start < 2 ^ 32) {opts' : MatchOpts}
    (hlook : lookupOpts env.toEnv opts q kg = some opts') (ho : OptsWf opts')
    (hn : NumbersOk opts' q.store.radius)
    (hwv : q.weight.Valid) (hlo : .fin (1 / 2 ^ 40) ≤ q.weight) (hhi : q.weight ≤ 1)
    {grids : List MatchEntry} (hg : env.query q.store kg.key opts' 80 = some grids)
    (hlang : SameSide opts' q.store.radius grids)
    (hzero : ∀ g, grids.head? = some g → g.entry.id ≠ 0 ∨ 0 < g.scoredist)
    {g : MatchEntry} (hgm : g ∈ grids)
    (hclose : ∀ g' ∈ grids, F64.flt (g'.entry.relev * q.weight - g.entry.relev * q.weight)
      (lit 0.25) = true) :
    (∃ c ∈ out, ∃ r ∈ grids, r.entry.id = g.entry.id ∧
      ContextOf env.toEnv opts qs [⟨q, kg, r⟩] c ∧ AtLeastAsGood q g c) ∨
    (∃ better : List Context, better.Subperm out ∧ better.length = 40 ∧ ∀ c ∈ better,
      (∃ r ∈ grids, ContextOf env.toEnv opts qs [⟨q, kg, r⟩] c) ∧ AtLeastAsGood q g c) ∨
    (80 < idChanges 0 (grids.map (·.entry.id)) ∧
      ∃ c ∈ out, (∃ r ∈ grids, ContextOf env.toEnv opts qs [⟨q, kg, r⟩] c) ∧
        AtLeastAsGood q g c ∧ (opts'.proximity ≠ none → Better q g c)) ∨
    (SlowScan (q, kg) ∧ ∃ b ∈ out, q.weight ≤ lit 0.75 * b.relev) ∨
    (out.length = 800 ∧ ∀ r ∈ out, g.entry.relev * q.weight ≤ r.relev) :=
  C78_alone o b hb db hfin hsmall hd hfew hz hout hw hstack halone hs hk (hroom.for _) hst hlook ho hn
    hwv hlo hhi hg hlang hzero hgm hclose

/-- Nothing can be put below something of the highest type. -/
theorem not_extendable {pms : List Subquery} {q : Subquery}
    (h : ∀ a ∈ pms, a.store.typeId ≤ q.store.typeId) : ¬ Extendable pms [q] := by
  rintro ⟨a, ha⟩
  have h1 := h a (ha.mem a (by simp))
  have h2 := ha.types
  simp only [List.cons_append, List.nil_append, List.pairwise_cons, List.mem_singleton,
    forall_eq] at h2
  omega

theorem streetBuilder_wf : streetBuilder.Wf :=
  (refines_run (cs := [.append ⟨2, 1⟩ [⟨1, 3, 5, 9, 7, 0⟩, ⟨1, 2, 40, 40, 8, 0⟩]])
    (by
      intro c hc
      rw [List.mem_singleton] at hc
      subst hc
      simp only [Call.Wf]
      decide +kernel) rfl).wf

/-- The hypotheses hold for the street of `pairedPms`: feature 8, which is in none of the regions, is
returned on its own. -/
example : ∃ out, stackAndCoalesce (listTreeEnv false) pairedPms plainOpts = some out ∧
    ∃ c ∈ out, c.entries.map (fun e => (e.idx, e.entry.id)) = [(1, 8)] := by
  have hdb : finish .id streetBuilder = some ((finish .id streetBuilder).getD []) := by
    decide +kernel
  obtain ⟨out, hout⟩ : ∃ out, stackAndCoalesce (listTreeEnv false) pairedPms plainOpts = some out :=
    Option.isSome_iff_exists.1 (by decide +kernel)
  have hol : out.length < 40 := by
    have : out = (stackAndCoalesce (listTreeEnv false) pairedPms plainOpts).getD [] := by
      rw [hout, Option.getD_some]
    rw [this]
    decide +kernel
  obtain ⟨o', hlook⟩ : ∃ o', lookupOpts (listTreeEnv false).toEnv plainOpts streetTreeMatch
      ⟨⟨.exact 2, 1⟩, false, 1, 5⟩ = some o' := ⟨⟨none, none, 8⟩, by decide +kernel⟩
  have ho' : o' = ⟨none, none, 8⟩ := by
    have : lookupOpts (listTreeEnv false).toEnv plainOpts streetTreeMatch
      ⟨⟨.exact 2, 1⟩, false, 1, 5⟩ = some ⟨none, none, 8⟩ := by decide +kernel
    rw [hlook] at this
    exact Option.some.inj this
  subst ho'
  obtain ⟨grids, hg⟩ : ∃ grids, (listTreeEnv false).query streetTreeMatch.store ⟨.exact 2, 1⟩
      ⟨none, none, 8⟩ 80 = some grids := Option.isSome_iff_exists.1 (by decide +kernel)
  have hgv : grids = ((listTreeEnv false).query streetTreeMatch.store ⟨.exact 2, 1⟩
    ⟨none, none, 8⟩ 80).getD [] := by rw [hg, Option.getD_some]
  obtain ⟨g, hgm, hid⟩ : ∃ g ∈ grids, g.entry.id = 8 := by rw [hgv]; decide +kernel
  have hcl : ∀ g ∈ grids, ∀ g' ∈ grids, F64.flt (g'.entry.relev * streetTreeMatch.weight -
      g.entry.relev * streetTreeMatch.weight) (lit 0.25) = true := by rw [hgv]; decide +kernel
  have h0 : ∀ g ∈ grids, g.entry.id ≠ 0 := by rw [hgv]; decide +kernel
  refine ⟨out, hout, ?_⟩
  rcases C69_alone_not_lost .id streetBuilder streetBuilder_wf _ hdb (by decide +kernel)
      (env := listTreeEnv false) (qs := pairedPms) (opts := plainOpts) (out := out)
      ⟨by decide +kernel, by decide +kernel, by decide +kernel⟩ (few_of_small (by decide +kernel))
      (Or.inr (by unfold ZoomsAscend; decide +kernel))
      (room_of_small (by decide +kernel) (by decide +kernel) (by
        have : ∀ q ∈ pairedPms, ∀ kg ∈ q.matchKeys,
            kg.key.phrase = .exact 1 ∨ kg.key.phrase = .exact 2 := by decide +kernel
        intro q hq kg hk
        rcases this q hq kg hk with h | h
        · exact ⟨1, h⟩
        · exact ⟨2, h⟩)) hout (by omega) (q := streetTreeMatch)
      ⟨by decide +kernel, by decide +kernel, by decide +kernel, by decide +kernel,
        by decide +kernel⟩
      (not_extendable (by decide +kernel)) rfl (kg := ⟨⟨.exact 2, 1⟩, false, 1, 5⟩)
      List.mem_cons_self (by decide) hlook ⟨by simp, by simp⟩ (fun h => absurd rfl h)
      (by decide +kernel) (by decide +kernel) (by decide +kernel) hg (sameSide_of_lang fun h => absurd rfl h)
      (fun g hgh => Or.inl (h0 g (List.mem_of_mem_head? hgh))) hgm (hcl g hgm) with
    ⟨c, hc, r, -, hr, hof, -⟩ | ⟨better, h1, h2, -⟩ | ⟨h, -⟩
  · refine ⟨c, hc, ?_⟩
    have := hof.entries
    obtain ⟨m, w, es⟩ := c
    simp only [List.reverse_singleton] at this ⊢
    cases this with
    | cons h1 h2 =>
      cases h2
      rw [List.map_singleton, h1.1.1, hr, hid, h1.1.2.2.2.2.2.2.2.2.2.2.1]
      rfl
  · have := h1.length_le
    omega
  · exact absurd h (by rw [hgv]; decide +kernel)

/-! ## From JavaScript -/

variable {C : PhraseCrate} {P : PhraseSerde C} {S : Serde}

/-- Looking up a match key does not drop the proximity point. -/
theorem keyLookup_proximity' {opts : MatchOpts} {q : Subquery} {kg : KeyWithId}
    (h : (keyLookup opts q kg).proximity = none) : opts.proximity = none := by
  have h1 : (opts.adjustToZoom q.store.zoom).proximity = none := by
    unfold keyLookup at h
    split_ifs at h
    · unfold MatchOpts.withNearbyOnly at h
      split at h
      · exact h
      · exact h
    · exact h
  unfold MatchOpts.adjustToZoom at h1
  split_ifs at h1
  · exact h1
  · simpa using h1

/-- What the query for a phrase match that stands alone returns. -/
theorem alone_query (hC : FindsPhrases C) {T : SearchSerde} {src : Subquery → Source P S}
    {values : List JsValue} {qs : List Subquery} {o : JsValue} {opts : MatchOpts}
    (h : AnyRequest T src values qs o opts) {env : TreeEnv} (henv : env.chk = false)
    {q : Subquery} {kg : KeyWithId} {g : MatchEntry} (hq : q ∈ qs)
    (hind : Indexed src opts ⟨q, kg, g⟩)
    (hfew : (wanted (src q).ix kg.key.phrase (src q).items).length ≤ 80)
    (hlang : opts.proximity ≠ none → ∀ it ∈ wanted (src q).ix kg.key.phrase (src q).items,
      langMatches kg.key.langSet it.langSet = true)
    (hzero : ∀ g, Indexed src opts ⟨q, kg, g⟩ → g.entry.id ≠ 0 ∨ 0 < g.scoredist) :
    ∃ ord b db grids, Builder.Wf b ∧ finish ord b = some db ∧ SmallRecords db ∧ q.store.db = db ∧
      kg.key.phrase.start < 2 ^ 32 ∧ lookupOpts env.toEnv opts q kg = some (keyLookup opts q kg) ∧
      OptsWf (keyLookup opts q kg) ∧ NumbersOk (keyLookup opts q kg) q.store.radius ∧
      env.query q.store kg.key (keyLookup opts q kg) 80 = some grids ∧
      SameSide (keyLookup opts q kg) q.store.radius grids ∧
      (∀ g, grids.head? = some g → g.entry.id ≠ 0 ∨ 0 < g.scoredist) ∧
      (∀ g, g ∈ grids ↔ Indexed src opts ⟨q, kg, g⟩) ∧
      idChanges 0 (grids.map (·.entry.id)) ≤ ((wanted (src q).ix kg.key.phrase
        (src q).items).flatMap fun it => it.grids).length := by
  have hop := h.opened _ hq
  have hkey : kg.key.phrase.start < 2 ^ 32 := by
    obtain ⟨k, hk', hp⟩ := h.keys hq
    have hk := hind.1
    simp only at hk
    rw [hk', List.mem_singleton] at hk
    rw [hk]; exact hp
  obtain ⟨hl1, hl2, hl3⟩ := lookupOpts_release (env := env.toEnv) henv (SearchSerde.optsWf h.decoded)
    h.zoom hop.zoom kg
  obtain ⟨all, h1, h2, h3, h4⟩ := opened_query hC hop env.merger env.rows kg.key hkey _ hl2 hl3
  obtain ⟨grids, hg, hperm⟩ := h1 80 hfew
  have hg' : env.query q.store kg.key (keyLookup opts q kg) 80 = some grids := by
    unfold Env.query; rw [henv]; exact hg
  have hmem : ∀ g, g ∈ grids ↔ Indexed src opts ⟨q, kg, g⟩ := fun g => by
    rw [hperm.mem_iff, h3]
    exact ⟨fun hi => ⟨hind.1, hi⟩, fun hi => hi.2⟩
  have hprox : (keyLookup opts q kg).proximity ≠ none → opts.proximity ≠ none := fun hx hn =>
    hx (keyLookup_proximity hn q kg)
  obtain ⟨ord, db, args, hbuild, hsmall, hopen⟩ := hop.built
  obtain ⟨cs, b, hwf, -, hrun, hfin, -⟩ := index_content hC hbuild
  obtain ⟨zoom, typeId, radius, bboxes, maxScore, hs⟩ := jsOpen_some hopen
  have hdb : q.store.db = db := by rw [hs]; rfl
  refine ⟨ord, b, db, grids, (refines_run hwf hrun).wf, hfin, hsmall, hdb, hkey, hl1, hl2,
    (fun _ => ⟨hl3, hop.radius⟩), hg', ?_, ?_, hmem, ?_⟩
  · refine sameSide_of_lang fun hp g hgm => ?_
    have hi : ItemHit (src q).ix (src q).items (keyLookup opts q kg) q.store.radius kg.key g :=
      ((hmem g).1 hgm).2
    obtain ⟨it, hit, hw, e, -, -, rfl⟩ := hi
    exact hlang (hprox hp) it (List.mem_filter.2 ⟨hit, by simpa using hw⟩)
  · intro g hgh
    exact hzero g ((hmem g).1 (List.mem_of_mem_head? hgh))
  · have h7 := idChanges_le 0 (grids.map (·.entry.id))
    rw [List.length_map, hperm.length_eq] at h7
    omega

/-- C69. The same from JavaScript, on indexes built from JavaScript: take a grid indexed under a
phrase that a phrase match nothing can be put below asks for, less than 0.25 below the best one. If
at most 80 items have such a phrase, then another of the same feature comes back that is at least as
good; or 40 contexts of this phrase match do that are all at least as good; or the items have more
than 80 grids, and a context of this phrase match comes back that is at least as good, and better
if there is a proximity point. This is the case that C67 leaves out. -/
theorem C69_from_js (hC : FindsPhrases C) {T : SearchSerde} {src : Subquery → Source P S}
    {values : List JsValue} {qs : List Subquery} {o : JsValue} {opts : MatchOpts}
    (h : StackRequest T src values qs o opts) {env : TreeEnv} (henv : env.chk = false)
    (hroom : RoomForGroups qs) (rest : List JsValue) :
    ∃ out, jsStackAndCoalesce T env (.arr values :: o :: .func :: rest) = .returned (some out) ∧
      (out.length < 800 → ∀ hit : Hit, Lone qs [hit] → IsStack qs [hit.q] →
        Indexed src opts hit →
        (wanted (src hit.q).ix hit.kg.key.phrase (src hit.q).items).length ≤ 80 →
        hit.q.weight.Valid → .fin (1 / 2 ^ 40) ≤ hit.q.weight →
        (opts.proximity ≠ none → ∀ it ∈ wanted (src hit.q).ix hit.kg.key.phrase (src hit.q).items,
          langMatches hit.kg.key.langSet it.langSet = true) →
        (∀ g, Indexed src opts ⟨hit.q, hit.kg, g⟩ → g.entry.id ≠ 0 ∨ 0 < g.scoredist) →
        (∀ g, Indexed src opts ⟨hit.q, hit.kg, g⟩ →
          F64.flt (g.entry.relev * hit.q.weight - hit.grid.entry.relev * hit.q.weight)
            (lit 0.25) = true) →
        (∃ c ∈ out, ∃ r, r.entry.id = hit.grid.entry.id ∧
          Indexed src opts ⟨hit.q, hit.kg, r⟩ ∧
          ContextOf env.toEnv opts qs [⟨hit.q, hit.kg, r⟩] c ∧ AtLeastAsGood hit.q hit.grid c) ∨
        (∃ better : List Context, better.Subperm out ∧ better.length = 40 ∧ ∀ c ∈ better,
          (∃ r, Indexed src opts ⟨hit.q, hit.kg, r⟩ ∧
            ContextOf env.toEnv opts qs [⟨hit.q, hit.kg, r⟩] c) ∧
          AtLeastAsGood hit.q hit.grid c) ∨
        (80 < ((wanted (src hit.q).ix hit.kg.key.phrase (src hit.q).items).flatMap
            fun it => it.grids).length ∧
          ∃ c ∈ out, (∃ r, Indexed src opts ⟨hit.q, hit.kg, r⟩ ∧
            ContextOf env.toEnv opts qs [⟨hit.q, hit.kg, r⟩] c) ∧
          AtLeastAsGood hit.q hit.grid c ∧
          (opts.proximity ≠ none → Better hit.q hit.grid c))) := by
  obtain ⟨out, hout, hjs⟩ := h.returns hC henv rest
  refine ⟨out, hjs, fun hlen hit hlone hst hind hfew hwv hlo hlang hzero hclose => ?_⟩
  obtain ⟨q, kg, g⟩ := hit
  simp only at hst hind hfew hwv hlo hlang hzero hclose ⊢
  have hq : q ∈ qs := hst.mem _ List.mem_cons_self
  have hhi := (h.weights q hq).2
  have halone : ¬ Extendable qs [q] := by
    obtain ⟨h', e, hx⟩ := hlone
    cases e
    exact hx
  obtain ⟨ord, b, db, grids, hb, hfin, hsmall, hdb, hkey, hl1, hl2, hl3, hg, hlg, hz, hmem, hch⟩ :=
    alone_query hC h.toAnyRequest henv hq hind hfew hlang hzero
  rcases C69_alone_not_lost ord b hb db hfin hsmall h.delivered h.few
    (Or.inr h.zooms) hroom hout hlen hst halone hdb hind.1 hkey hl1 hl2 hl3
    hwv hlo hhi hg hlg hz ((hmem g).2 hind) (fun g' hg' => hclose g' ((hmem g').1 hg')) with
    ⟨c, hc, r, hr, hid, h5⟩ | ⟨better, b1, b2, b3⟩ | ⟨h5, c, hc, ⟨r, hr, hof⟩, h6, h7⟩
  · exact Or.inl ⟨c, hc, r, hid, (hmem r).1 hr, h5⟩
  · refine Or.inr (Or.inl ⟨better, b1, b2, fun c hc => ?_⟩)
    obtain ⟨⟨r, hr, hof⟩, hgd⟩ := b3 c hc
    exact ⟨⟨r, (hmem r).1 hr, hof⟩, hgd⟩
  · exact Or.inr (Or.inr ⟨h5.trans_le hch, c, hc, ⟨r, (hmem r).1 hr, hof⟩, h6,
      fun hp => h7 fun hn => hp (keyLookup_proximity' hn)⟩)

/-- C78. The same without the rule that slow scans do not occur, for any number of contexts and where
only the quotas the scan counts against need to be enough, with two more cases: the scan was given up, and something comes back with a third more relevance than the
weight of the phrase match; or 800 contexts come back, none of which has less relevance. -/
theorem C78_alone_from_js (hC : FindsPhrases C) {T : SearchSerde} {src : Subquery → Source P S}
    {values : List JsValue} {qs : List Subquery} {o : JsValue} {opts : MatchOpts}
    (h : StackRequest T src values qs o opts) {env : TreeEnv} (henv : env.chk = false)
    (hw : WeightsPositive qs) (rest : List JsValue) :
    ∃ out, jsStackAndCoalesce T env (.arr values :: o :: .func :: rest) = .returned (some out) ∧
      (∀ hit : Hit, Lone qs [hit] → IsStack qs [hit.q] →
        RoomInGroups qs (hit.q, hit.kg) →
        Indexed src opts hit →
        (wanted (src hit.q).ix hit.kg.key.phrase (src hit.q).items).length ≤ 80 →
        hit.q.weight.Valid → .fin (1 / 2 ^ 40) ≤ hit.q.weight →
        (opts.proximity ≠ none → ∀ it ∈ wanted (src hit.q).ix hit.kg.key.phrase (src hit.q).items,
          langMatches hit.kg.key.langSet it.langSet = true) →
        (∀ g, Indexed src opts ⟨hit.q, hit.kg, g⟩ → g.entry.id ≠ 0 ∨ 0 < g.scoredist) →
        (∀ g, Indexed src opts ⟨hit.q, hit.kg, g⟩ →
          F64.flt (g.entry.relev * hit.q.weight - hit.grid.entry.relev * hit.q.weight)
            (lit 0.25) = true) →
        (∃ c ∈ out, ∃ r, r.entry.id = hit.grid.entry.id ∧
          Indexed src opts ⟨hit.q, hit.kg, r⟩ ∧
          ContextOf env.toEnv opts qs [⟨hit.q, hit.kg, r⟩] c ∧ AtLeastAsGood hit.q hit.grid c) ∨
        (∃ better : List Context, better.Subperm out ∧ better.length = 40 ∧ ∀ c ∈ better,
          (∃ r, Indexed src opts ⟨hit.q, hit.kg, r⟩ ∧
            ContextOf env.toEnv opts qs [⟨hit.q, hit.kg, r⟩] c) ∧
          AtLeastAsGood hit.q hit.grid c) ∨
        (80 < ((wanted (src hit.q).ix hit.kg.key.phrase (src hit.q).items).flatMap
            fun it => it.grids).length ∧
          ∃ c ∈ out, (∃ r, Indexed src opts ⟨hit.q, hit.kg, r⟩ ∧
            ContextOf env.toEnv opts qs [⟨hit.q, hit.kg, r⟩] c) ∧
          AtLeastAsGood hit.q hit.grid c ∧
          (opts.proximity ≠ none → Better hit.q hit.grid c)) ∨
        (SlowScan (hit.q, hit.kg) ∧ ∃ b ∈ out, hit.q.weight ≤ lit 0.75 * b.relev) ∨
        (out.length = 800 ∧ ∀ r ∈ out, hit.grid.entry.relev * hit.q.weight ≤ r.relev)) := by
  obtain ⟨out, hout, hjs⟩ := h.returns hC henv rest
  refine ⟨out, hjs, fun hit hlone hst hroom hind hfew hwv hlo hlang hzero hclose => ?_⟩
  obtain ⟨q, kg, g⟩ := hit
  simp only at hst hroom hind hfew hwv hlo hlang hzero hclose ⊢
  have hq : q ∈ qs := hst.mem _ List.mem_cons_self
  have hhi := (h.weights q hq).2
  have halone : ¬ Extendable qs [q] := by
    obtain ⟨h', e, hx⟩ := hlone
    cases e
    exact hx
  obtain ⟨ord, b, db, grids, hb, hfin, hsmall, hdb, hkey, hl1, hl2, hl3, hg, hlg, hz, hmem, hch⟩ :=
    alone_query hC h.toAnyRequest henv hq hind hfew hlang hzero
  rcases C78_alone ord b hb db hfin hsmall h.delivered h.few
    (Or.inr h.zooms) hout (weightsOk_of_positive hw) hst halone hdb hind.1 hroom hkey hl1 hl2 hl3
    hwv hlo hhi hg hlg hz ((hmem g).2 hind) (fun g' hg' => hclose g' ((hmem g').1 hg')) with
    ⟨c, hc, r, hr, hid, h5⟩ | ⟨better, b1, b2, b3⟩ | ⟨h5, c, hc, ⟨r, hr, hof⟩, h6, h7⟩ | h5
  · exact Or.inl ⟨c, hc, r, hid, (hmem r).1 hr, h5⟩
  · refine Or.inr (Or.inl ⟨better, b1, b2, fun c hc => ?_⟩)
    obtain ⟨⟨r, hr, hof⟩, hgd⟩ := b3 c hc
    exact ⟨⟨r, (hmem r).1 hr, hof⟩, hgd⟩
  · exact Or.inr (Or.inr (Or.inl ⟨h5.trans_le hch, c, hc, ⟨r, (hmem r).1 hr, hof⟩, h6,
      fun hp => h7 fun hn => hp (keyLookup_proximity' hn)⟩))
  · exact Or.inr (Or.inr (Or.inr h5))

/-- C79. The same for any number of stacks, with one more case: 2000 stacks are at least about as good as
the phrase match. -/
theorem C79_alone_from_js (hC : FindsPhrases C) {T : SearchSerde} {src : Subquery → Source P S}
    {values : List JsValue} {qs : List Subquery} {o : JsValue} {opts : MatchOpts}
    (h : AnyRequest T src values qs o opts) {env : TreeEnv} (henv : env.chk = false)
    (hf : FewTypes qs) (hw : WeightsPositive qs) (rest : List JsValue) :
    ∃ out, jsStackAndCoalesce T env (.arr values :: o :: .func :: rest) = .returned (some out) ∧
      (∀ hit : Hit, Lone qs [hit] → IsStack qs [hit.q] →
        RoomInGroups qs (hit.q, hit.kg) →
        Indexed src opts hit →
        (wanted (src hit.q).ix hit.kg.key.phrase (src hit.q).items).length ≤ 80 →
        hit.q.weight.Valid → .fin (1 / 2 ^ 40) ≤ hit.q.weight →
        (opts.proximity ≠ none → ∀ it ∈ wanted (src hit.q).ix hit.kg.key.phrase (src hit.q).items,
          langMatches hit.kg.key.langSet it.langSet = true) →
        (∀ g, Indexed src opts ⟨hit.q, hit.kg, g⟩ → g.entry.id ≠ 0 ∨ 0 < g.scoredist) →
        (∀ g, Indexed src opts ⟨hit.q, hit.kg, g⟩ →
          F64.flt (g.entry.relev * hit.q.weight - hit.grid.entry.relev * hit.q.weight)
            (lit 0.25) = true) →
        (∃ c ∈ out, ∃ r, r.entry.id = hit.grid.entry.id ∧
          Indexed src opts ⟨hit.q, hit.kg, r⟩ ∧
          ContextOf env.toEnv opts qs [⟨hit.q, hit.kg, r⟩] c ∧ AtLeastAsGood hit.q hit.grid c) ∨
        (∃ better : List Context, better.Subperm out ∧ better.length = 40 ∧ ∀ c ∈ better,
          (∃ r, Indexed src opts ⟨hit.q, hit.kg, r⟩ ∧
            ContextOf env.toEnv opts qs [⟨hit.q, hit.kg, r⟩] c) ∧
          AtLeastAsGood hit.q hit.grid c) ∨
        (80 < ((wanted (src hit.q).ix hit.kg.key.phrase (src hit.q).items).flatMap
            fun it => it.grids).length ∧
          ∃ c ∈ out, (∃ r, Indexed src opts ⟨hit.q, hit.kg, r⟩ ∧
            ContextOf env.toEnv opts qs [⟨hit.q, hit.kg, r⟩] c) ∧
          AtLeastAsGood hit.q hit.grid c ∧
          (opts.proximity ≠ none → Better hit.q hit.grid c)) ∨
        (SlowScan (hit.q, hit.kg) ∧ ∃ b ∈ out, hit.q.weight ≤ lit 0.75 * b.relev) ∨
        (out.length = 800 ∧ ∀ r ∈ out, hit.grid.entry.relev * hit.q.weight ≤ r.relev) ∨
        Crowded 2000 qs [hit.q]) := by
  obtain ⟨out, hout, hjs⟩ := h.returns hC henv rest
  refine ⟨out, hjs, fun hit hlone hst hroom hind hfew hwv hlo hlang hzero hclose => ?_⟩
  obtain ⟨q, kg, g⟩ := hit
  simp only at hst hroom hind hfew hwv hlo hlang hzero hclose ⊢
  have hq : q ∈ qs := hst.mem _ List.mem_cons_self
  have hhi := (h.weights q hq).2
  have halone : ¬ Extendable qs [q] := by
    obtain ⟨h', e, hx⟩ := hlone
    cases e
    exact hx
  obtain ⟨ord, b, db, grids, hb, hfin, hsmall, hdb, hkey, hl1, hl2, hl3, hg, hlg, hz, hmem, hch⟩ :=
    alone_query hC h henv hq hind hfew hlang hzero
  rcases C79_alone ord b hb db hfin hsmall h.delivered hf
    (Or.inr h.zooms) hout (weightsOk_of_positive hw) hst halone hdb hind.1 hroom hkey hl1 hl2 hl3
    hwv hlo hhi hg hlg hz ((hmem g).2 hind) (fun g' hg' => hclose g' ((hmem g').1 hg')) with
    ⟨c, hc, r, hr, hid, h5⟩ | ⟨better, b1, b2, b3⟩ | ⟨h5, c, hc, ⟨r, hr, hof⟩, h6, h7⟩ | h5
  · exact Or.inl ⟨c, hc, r, hid, (hmem r).1 hr, h5⟩
  · refine Or.inr (Or.inl ⟨better, b1, b2, fun c hc => ?_⟩)
    obtain ⟨⟨r, hr, hof⟩, hgd⟩ := b3 c hc
    exact ⟨⟨r, (hmem r).1 hr, hof⟩, hgd⟩
  · exact Or.inr (Or.inr (Or.inl ⟨h5.trans_le hch, c, hc, ⟨r, (hmem r).1 hr, hof⟩, h6,
      fun hp => h7 fun hn => hp (keyLookup_proximity' hn)⟩))
  · exact Or.inr (Or.inr (Or.inr h5))

/-- C76. The same without the rule that slow scans do not occur and for any number of contexts, with two
more cases: the scan was given up, and something comes back with a third more relevance than the
weight of the phrase match; or 800 contexts come back, none of which has less relevance. -/
theorem C76_alone_from_js (hC : FindsPhrases C) {T : SearchSerde} {src : Subquery → Source P S}
    {values : List JsValue} {qs : List Subquery} {o : JsValue} {opts : MatchOpts}
    (h : StackRequest T src values qs o opts) {env : TreeEnv} (henv : env.chk = false)
    (hw : WeightsPositive qs) (hroom : RoomToTryGroups qs) (rest : List JsValue) :
    ∃ out, jsStackAndCoalesce T env (.arr values :: o :: .func :: rest) = .returned (some out) ∧
      (∀ hit : Hit, Lone qs [hit] → IsStack qs [hit.q] →
        Indexed src opts hit →
        (wanted (src hit.q).ix hit.kg.key.phrase (src hit.q).items).length ≤ 80 →
        hit.q.weight.Valid → .fin (1 / 2 ^ 40) ≤ hit.q.weight →
        (opts.proximity ≠ none → ∀ it ∈ wanted (src hit.q).ix hit.kg.key.phrase (src hit.q).items,
          langMatches hit.kg.key.langSet it.langSet = true) →
        (∀ g, Indexed src opts ⟨hit.q, hit.kg, g⟩ → g.entry.id ≠ 0 ∨ 0 < g.scoredist) →
        (∀ g, Indexed src opts ⟨hit.q, hit.kg, g⟩ →
          F64.flt (g.entry.relev * hit.q.weight - hit.grid.entry.relev * hit.q.weight)
            (lit 0.25) = true) →
        (∃ c ∈ out, ∃ r, r.entry.id = hit.grid.entry.id ∧
          Indexed src opts ⟨hit.q, hit.kg, r⟩ ∧
          ContextOf env.toEnv opts qs [⟨hit.q, hit.kg, r⟩] c ∧ AtLeastAsGood hit.q hit.grid c) ∨
        (∃ better : List Context, better.Subperm out ∧ better.length = 40 ∧ ∀ c ∈ better,
          (∃ r, Indexed src opts ⟨hit.q, hit.kg, r⟩ ∧
            ContextOf env.toEnv opts qs [⟨hit.q, hit.kg, r⟩] c) ∧
          AtLeastAsGood hit.q hit.grid c) ∨
        (80 < ((wanted (src hit.q).ix hit.kg.key.phrase (src hit.q).items).flatMap
            fun it => it.grids).length ∧
          ∃ c ∈ out, (∃ r, Indexed src opts ⟨hit.q, hit.kg, r⟩ ∧
            ContextOf env.toEnv opts qs [⟨hit.q, hit.kg, r⟩] c) ∧
          AtLeastAsGood hit.q hit.grid c ∧
          (opts.proximity ≠ none → Better hit.q hit.grid c)) ∨
        (SlowScan (hit.q, hit.kg) ∧ ∃ b ∈ out, hit.q.weight ≤ lit 0.75 * b.relev) ∨
        (out.length = 800 ∧ ∀ r ∈ out, hit.grid.entry.relev * hit.q.weight ≤ r.relev)) := by
  obtain ⟨out, hjs, hall⟩ := C78_alone_from_js hC h henv hw rest
  exact ⟨out, hjs, fun hit hlone hst => hall hit hlone hst (hroom.for _)⟩

/-- The hypotheses hold for the two indexes of C67: "main" of the second one comes back on its own. -/
example : ∃ out, jsStackAndCoalesce worldSearch (listTreeEnv false)
      (.arr [foundItem 1, foundItem 2] :: foundOpts :: .func :: []) = .returned (some out) ∧
    ∃ c ∈ out, ∃ r, r.entry.id = 5 ∧ ContextOf (listTreeEnv false).toEnv ⟨none, none, 6⟩
      [foundMatch 1, foundMatch 2] [⟨foundMatch 2, foundKey 2, r⟩] c := by
  have hlen : ∀ out, jsStackAndCoalesce worldSearch (listTreeEnv false)
      (.arr [foundItem 1, foundItem 2] :: foundOpts :: .func :: []) = .returned (some out) →
      out.length < 40 := by
    intro out hout
    have : (match jsStackAndCoalesce worldSearch (listTreeEnv false)
        (.arr [foundItem 1, foundItem 2] :: foundOpts :: .func :: []) with
      | .returned (some out) => decide (out.length < 40)
      | _ => false) = true := by decide +kernel
    rw [hout] at this
    exact of_decide_eq_true this
  obtain ⟨out, hout, hall⟩ := C69_from_js plainPhrases_finds found_request (env := listTreeEnv false) rfl
    found_room []
  have hl := hlen out hout
  have hitems : ∀ g, Indexed foundSource ⟨none, none, 6⟩ ⟨foundMatch 2, foundKey 2, g⟩ →
      g.entry.id ≠ 0 ∧ g.entry.relev = 1 := by
    intro g hg
    have hi : ItemHit (foundSource (foundMatch 2)).ix (foundSource (foundMatch 2)).items
        (keyLookup ⟨none, none, 6⟩ (foundMatch 2) (foundKey 2)) (foundMatch 2).store.radius
        (foundKey 2).key g := hg.2
    obtain ⟨it, hit, -, e, he, -, rfl⟩ := hi
    have : ∀ it ∈ wordItems plainPhrases, ∀ e ∈ it.grids,
        (report (keyLookup ⟨none, none, 6⟩ (foundMatch 2) (foundKey 2)) (foundMatch 2).store.radius
          (langMatches (foundKey 2).key.langSet it.langSet) (stored e)).entry.id ≠ 0 ∧
        (report (keyLookup ⟨none, none, 6⟩ (foundMatch 2) (foundKey 2)) (foundMatch 2).store.radius
          (langMatches (foundKey 2).key.langSet it.langSet) (stored e)).entry.relev = 1 := by
      decide +kernel
    exact this it hit e he
  refine ⟨out, hout, ?_⟩
  rcases hall (by omega) (foundHit 2) ⟨_, rfl, not_extendable (by decide +kernel)⟩
      ⟨by decide +kernel, by decide +kernel, by decide +kernel, by decide +kernel,
        by decide +kernel⟩ (foundHit_indexed 2 (Or.inr rfl)).1
      ((wanted_le _ _ _).1.trans (by show List.length (wordItems plainPhrases) ≤ _; decide +kernel))
      (by decide +kernel) (by decide +kernel) (fun h => absurd rfl h)
      (fun g hg => Or.inl (hitems g hg).1)
      (fun g hg => by rw [(hitems g hg).2]; decide +kernel) with
    ⟨c, hc, r, hr, -, hof, -⟩ | ⟨better, h1, h2, -⟩ | ⟨h, -⟩
  · exact ⟨c, hc, r, hr, hof⟩
  · have := h1.length_le
    omega
  · have := (wanted_le (foundSource (foundMatch 2)).ix (foundKey 2).key.phrase
      (foundSource (foundMatch 2)).items).2
    have h5 : ((foundSource (foundMatch 2)).items.flatMap fun it => it.grids).length ≤ 80 := by
      show (List.flatMap _ (wordItems plainPhrases)).length ≤ _
      decide +kernel
    exact absurd (h.trans_le (this.trans h5)) (lt_irrefl _)

end Carmen
