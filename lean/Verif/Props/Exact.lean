import Verif.Props.Once
import Verif.Props.Alone
import Verif.Props.Found
import Verif.Lemmas.TreeExact

/-!
# C81: what comes back is exactly what should, in whatever order phrase matches are handed over
-/

namespace Carmen
open Spec

theorem madeFrom_unique {q : Subquery} {g : MatchEntry} {e e' : CoalesceEntry}
    (h : MadeFrom q g e) (h' : MadeFrom q g e') (hp : e.phrasematchId = e'.phrasematchId) :
    e = e' := by
  obtain ⟨⟨_, _, _, _, _, _⟩, _, _, _, _, _, _, _⟩ := e
  obtain ⟨⟨_, _, _, _, _, _⟩, _, _, _, _, _, _, _⟩ := e'
  obtain ⟨a1, a2, a3, a4, a5, a6, a7, a8, a9, a10, a11, a12⟩ := h
  obtain ⟨b1, b2, b3, b4, b5, b6, b7, b8, b9, b10, b11, b12⟩ := h'
  simp only at *
  subst a1 a2 a3 a4 a5 a6 a7 a8 a9 a10 a11 a12 b1 b2 b3 b4 b5 b6 b7 b8 b9 b10 b11 b12 hp
  rfl

/-- Hits leave nothing open about the context. -/
theorem contextOf_unique {env : Env} {opts : MatchOpts} {pms : List Subquery} {hs : List Hit}
    {c c' : Context} (h : ContextOf env opts pms hs c) (h' : ContextOf env opts pms hs c') :
    c = c' := by
  have he : c.entries = c'.entries := by
    have h1 := h.entries
    have h2 := h'.entries
    revert h1 h2
    generalize c.entries = a
    generalize c'.entries = b
    generalize hs.reverse = l
    intro h1 h2
    induction h1 generalizing b with
    | nil =>
      cases h2
      rfl
    | cons h1 _ ih =>
      cases h2 with
      | cons h2 h3 =>
        rw [ih _ h3, madeFrom_unique h1.1 h2.1 (h1.2.trans h2.2.symm)]
  have hm : c.mask = c'.mask := h.mask.trans h'.mask.symm
  have hr : c.relev = c'.relev := by
    by_cases hl : LosesPoints pms hs
    · exact (h.penalty hl).trans (h'.penalty hl).symm
    · exact (h.plain hl).trans (h'.plain hl).symm
  obtain ⟨_, _, _⟩ := c
  obtain ⟨_, _, _⟩ := c'
  simp only at he hm hr
  subst he hm hr
  rfl

theorem treeSingle_bare {env : Env} {a b : Subquery} (h : bare a = bare b) (o : MatchOpts)
    (grids : List MatchEntry) (pid : ℕ) :
    treeSingle env a o grids pid = treeSingle env b o grids pid := by
  obtain ⟨_, _, _, _, _, _⟩ := a
  obtain ⟨_, _, _, _, _, _⟩ := b
  unfold bare at h
  cases h
  rfl

theorem Spec.Short.not_many {out l : List Context} (h : Short out) (hl : l.Subperm out) {id : ℕ}
    (hid : ∀ r ∈ l, r.first.phrasematchId = id) : l.length < 40 := by
  refine lt_of_le_of_lt ?_ (h.each id)
  have := (hl.filter fun c => decide (c.first.phrasematchId = id)).length_le
  rwa [List.filter_eq_self.2 (by simpa using hid)] at this

theorem Spec.ContextOf.first_id {env : Env} {opts : MatchOpts} {pms : List Subquery} {hs : List Hit}
    {c : Context} (h : ContextOf env opts pms hs c) {l : Hit} (hl : hs.getLast? = some l) :
    c.first.phrasematchId = l.kg.id := by
  obtain ⟨ys, rfl⟩ := List.getLast?_eq_some_iff.1 hl
  have he := h.entries
  rw [List.reverse_concat] at he
  unfold Context.first
  cases hc : c.entries with
  | nil => rw [hc] at he; cases he
  | cons e es =>
    rw [hc] at he
    cases he with
    | cons h1 _ => exact h1.2

/-- Nothing but what should be returned is returned. -/
theorem tree_exact_sound {env : TreeEnv} {sm : ℕ} {pms : List Subquery} {t : StackTree}
    {opts : MatchOpts} {out : List Context} (h : stackableWith sm pms = some t)
    (hnd : pms.Nodup) (hfew : FewStacks sm pms) (hids : IdsUnique pms)
    (hz : env.chk = true ∨ ZoomsAscend pms) (hout : treeCoalesce env t opts = some out) :
    ∀ c ∈ out, ShouldReturn env.toEnv opts pms c := by
  have hlim := (few_below_limit h hnd hfew).1
  obtain ⟨s₀, s, h1, h2, rfl⟩ := treeCoalesce_some hout
  intro c hc
  have hr : RunOk env t opts pms := ⟨⟨sm, h⟩, hids, hz⟩
  rcases treeLoop_sourced hr h1 h2 c ((env.contexts.intoVecDesc_perm _).mem_iff.1 hc) with
    ⟨ls, hna, hls⟩ | ⟨node, q, kg, o, grids, all, hp, hpm, hch, hk, e1, e2, e3, hca⟩
  · have hpm : ∀ l ∈ ls, l.node.pm = some l.q := fun l hl =>
      (hls.answers l hl 100000 (fun hn => absurd hn hna) (fun _ => rfl)).1
    refine Or.inl ⟨_, fun hl => hna ?_,
      (stackedFrom_iff h hnd (whole_of_lim h hlim _) hls.path hpm).1 hls⟩
    refine (alone_iff (pms := pms) ?_).2 hl
    rintro l rfl
    exact children_iff h hnd (whole_of_lim h hlim _) hls.path (hpm l (by simp))
  · refine Or.inr ⟨q, kg, o, grids, all, ?_, ?_, hk, e1, e2, e3, hca⟩
    · exact levels_isStack (ls := [⟨node, q, kg, ⟨⟨0, 0, 0, 0, 0, 0⟩, false, 0, 0⟩⟩]) h hp
        (by simpa using hpm)
    · rw [← children_iff h hnd (whole_of_lim h hlim _) hp hpm]
      exact not_not_intro hch

/-- A phrase match that stands alone: all its contexts are returned when there is room. -/
theorem tree_lone {env : TreeEnv} {sm : ℕ} {pms : List Subquery} {t : StackTree}
    {opts : MatchOpts} {out : List Context} (h : stackableWith sm pms = some t)
    (hnd : pms.Nodup) (hfew : FewStacks sm pms) (hids : IdsUnique pms) (hone : OneOwner pms)
    (hz : env.chk = true ∨ ZoomsAscend pms) (hout : treeCoalesce env t opts = some out)
    (hlen : Short out) {q : Subquery} (hstack : IsStack pms [q])
    (halone : ¬ Extendable pms [q]) {kg : KeyWithId} (hk : kg ∈ q.matchKeys)
    (hroom : RoomInStacks pms (q, kg)) (hslow : ¬ SlowScan (q, kg))
    {o : MatchOpts} {grids : List MatchEntry} {all : List Context}
    (e1 : lookupOpts env.toEnv opts q kg = some o)
    (e2 : env.query q.store kg.key o 80 = some grids)
    (e3 : treeSingle env.toEnv q o grids kg.id = some all) : ∀ c ∈ all, c ∈ out := by
  obtain ⟨hlim, l, hl1, hl2, hl3⟩ := few_below_limit h hnd hfew
  have hwhole := whole_of_lim h hlim [q]
  have hroom' : RoomToTryFor (scansOf t) (q, kg) := by
    rw [hl3]
    exact hroom l hl1 hl2
  obtain ⟨ls, hls, hp, hpm⟩ := levels_of_hits
    (hs := [⟨q, kg, ⟨⟨0, 0, 0, 0, 0, 0⟩, false, 0, 0⟩⟩]) h hnd hstack hwhole.1
  obtain ⟨lv, rfl, hlv⟩ := map_eq_one hls
  obtain ⟨node, q', kg', g'⟩ := lv
  have hq' : q' = q := congrArg Hit.q hlv
  have hq : node.pm = some q := by
    rw [← hq']
    exact hpm _ List.mem_cons_self
  have hp : TreePath t t.root [node] := hp
  have hch : node.children = [] := by
    by_contra hne
    exact halone ((children_iff h hnd hwhole hp hq).1 hne)
  have hqm := hstack.mem q (by simp)
  obtain ⟨s₀, s, h1, h2, rfl⟩ := treeCoalesce_some hout
  have hperm := env.contexts.intoVecDesc_perm s.contexts
  have hr : RunOk env t opts pms := ⟨⟨sm, h⟩, hids, hz⟩
  have h1' := hlen.all
  rw [hperm.length_eq] at h1'
  have h800 : maxResults = 800 := rfl
  rcases treeLoop_alone hr (C32_tree_shape h) hone hroom' hp hq hch hqm hk h1 h2 with
    (⟨o₂, grids₂, all₂, g1, g2, g3, hsub⟩ | hdr) | ⟨hge, hb⟩
  rotate_left
  · exact absurd hdr.1 hslow
  · omega
  rw [e1] at g1
  cases g1
  rw [e2] at g2
  cases g2
  rw [e3] at g3
  cases g3
  intro c hc
  rw [hperm.mem_iff]
  obtain ⟨gone, k1, k2⟩ := cpqPushAll_gone env.contexts maxContexts all []
  rw [List.append_nil] at k1
  rcases List.mem_append.1 (k1.mem_iff.2 hc) with hc | hc
  · rcases hsub [c] c.sortKey (List.singleton_subperm_iff.2 hc) (by simp) with h | h
    · exact List.singleton_subperm_iff.1 h
    · have := h.1
      omega
  · obtain ⟨k3, k4⟩ := k2 c hc
    have h40 : maxContexts = 40 := rfl
    rcases hsub _ c.sortKey (List.Subperm.refl _) k4 with h | h
    · have := hlen.not_many (h.trans hperm.symm.subperm) (id := kg.id) (fun r hr => by
        rcases mem_cpqPushAll _ hr with hr | hr
        · obtain ⟨g, _, rfl⟩ := treeSingle_made e3 r hr
          rfl
        · cases hr)
      omega
    · have := h.1
      omega

/-- C81: nothing is returned but contexts of hits whose tiles lie in each other and the contexts
`tree_coalesce_single` makes for phrase matches that stand alone. -/
theorem C81_sound {env : TreeEnv} {qs : List Subquery} {opts : MatchOpts} {out : List Context}
    (hd : Delivered qs) (hfew : FewGroupStacks 2000 qs) (hz : env.chk = true ∨ ZoomsAscend qs)
    (hout : stackAndCoalesce env qs opts = some out) :
    ∀ c ∈ out, ShouldReturn env.toEnv opts qs c := by
  unfold stackAndCoalesce at hout
  obtain ⟨collapsed, h1, hout⟩ := Option.bind_eq_some_iff.1 hout
  obtain ⟨t, h2, hout⟩ := Option.bind_eq_some_iff.1 hout
  obtain ⟨rep, orig, grp, hr⟩ := collapse_regroups hd h1
  intro c hc
  rcases tree_exact_sound h2 hr.nodup (hr.fewStacks hfew) (hr.idsUnique hd)
    (hz.imp_right hr.zooms) hout c hc with ⟨hs, hl, hcx⟩ |
      ⟨q, kg, o, grids, all, hst, hx, hk, e1, e2, e3, hca⟩
  · obtain ⟨hb, hk⟩ := hr.orig_bare hcx.keys
    refine Or.inl ⟨_, ?_, contextOf_move hr.covers hr.covers' hb (fun h hh => (hcx.keys h hh).1)
      (fun h hh => (hk h hh).1) (fun h hh => (hk h hh).2) hcx⟩
    rwa [← lone_move hr.covers hr.covers' hb (fun h hh => (hcx.keys h hh).1)
      (fun h hh => (hk h hh).1)]
  · have hq := hst.mem q (by simp)
    obtain ⟨i1, i2, i3⟩ := hr.orig_mem q hq kg hk
    have hs : (orig q kg).store = q.store := store_of_bare i2
    refine Or.inr ⟨orig q kg, kg, o, grids, all,
      isStack_move (by simp [i2]) (by simpa using i1) hst, fun hx' => hx ?_,
      by rw [i3]; exact List.mem_singleton_self _, ?_, by rw [hs]; exact e2, ?_, hca⟩
    · exact extendable_move hr.covers' (by simp [i2]) (by simpa using hq) hx'
    · unfold lookupOpts at e1 ⊢
      rw [hs]
      exact e1
    · rw [treeSingle_bare i2]
      exact e3

/-- The contexts of phrase matches that stand alone are all returned when there is room. -/
theorem lone_complete {env : TreeEnv} {qs : List Subquery} {opts : MatchOpts} {out : List Context}
    (hd : Delivered qs) (hfew : FewGroupStacks 2000 qs) (hz : env.chk = true ∨ ZoomsAscend qs)
    (hroom : RoomForGroups qs)
    (hout : stackAndCoalesce env qs opts = some out) (hlen : Short out) {c : Context}
    (h : LoneResult env.toEnv opts qs c) : c ∈ out := by
  obtain ⟨q, kg, o, grids, all, hst, hx, hk, e1, e2, e3, hca⟩ := h
  unfold stackAndCoalesce at hout
  obtain ⟨collapsed, h1, hout⟩ := Option.bind_eq_some_iff.1 hout
  obtain ⟨t, h2, hout⟩ := Option.bind_eq_some_iff.1 hout
  obtain ⟨rep, orig, grp, hr⟩ := collapse_regroups hd h1
  have hqm := hst.mem q (by simp)
  obtain ⟨g1, g2, g3⟩ := hr.grp_mem q hqm
  have hone : OneOwner collapsed := by
    intro a ha b hb k hk l hl hid
    obtain ⟨i1, i2, i3⟩ := hr.orig_mem a ha k hk
    obtain ⟨i4, i5, i6⟩ := hr.orig_mem b hb l hl
    obtain ⟨e1, e2⟩ := delivered_inj hd i1 i4 (i3 ▸ List.mem_singleton_self k)
      (i6 ▸ List.mem_singleton_self l) hid
    refine ⟨hr.inj a ha b hb (groupKey_of_bare ?_), e2⟩
    rw [← i2, ← i5, e1]
  have hs : (grp q).store = q.store := store_of_bare g2
  have hslow : ¬ SlowScan (grp q, kg) := by
    rintro ⟨p1, p2, p3⟩
    have hmem : (q, kg) ∈ lastScans [[q]] := by
      unfold lastScans
      simpa using hk
    have := (hroom [[q]] (by simp) (by simpa using hst)).worth _ hmem p1
      (by
        unfold CoversOne at p2 ⊢
        simp only at p2 ⊢
        rwa [mask_of_bare g2] at p2)
    simp only at this p3
    rw [hs] at p3
    omega
  exact tree_lone h2 hr.nodup (hr.fewStacks hfew) (hr.idsUnique hd) hone (hz.imp_right hr.zooms)
    hout hlen (isStack_move (pms := qs) (qs := [q]) (by simp [g2]) (by simpa using g1) hst)
    (fun hx' => hx (extendable_move hr.covers (by simp [g2]) (by simpa using hqm) hx'))
    (g3 _ hk) (hr.room (y := (q, kg)) g2 rfl (hroom.toTry.for (q, kg))) hslow
    (by unfold lookupOpts at e1 ⊢; rw [hs]; exact e1) (by rw [hs]; exact e2)
    ((treeSingle_bare g2 _ _ _).trans e3) c hca

/-- C81: everything that should be returned is, when less than 40 contexts are, and there is room. -/
theorem C81_complete {env : TreeEnv} {qs : List Subquery} {opts : MatchOpts} {out : List Context}
    (hd : Delivered qs) (hfew : FewGroupStacks 2000 qs) (hz : env.chk = true ∨ ZoomsAscend qs)
    (hroom : RoomForGroups qs) (hbox : BoxesCover env.toEnv opts qs)
    (hout : stackAndCoalesce env qs opts = some out) (hlen : Short out) :
    ∀ c, ShouldReturn env.toEnv opts qs c → c ∈ out := by
  rintro c (⟨hs, hl, hcx⟩ | hlone)
  · have hup : HitsStackUp env.toEnv opts qs hs := ⟨hcx.ne, hl, hcx.stack, hcx.first hl,
      fun h hh => hbox h (hcx.keys h hh).1 (hcx.first hl h hh), hcx.tiles⟩
    rcases C56_complete hd hfew hz hroom hout hlen.all hup with ⟨c', hc', hcx'⟩ | ⟨b, b1, b2, b3⟩
    · rw [contextOf_unique hcx hcx']
      exact hc'
    · obtain ⟨above, last, rfl⟩ := (List.eq_nil_or_concat' hs).resolve_left hcx.ne
      have := hlen.not_many b1 (id := last.kg.id) (fun r hr => by
        obtain ⟨⟨hs', hx', -, hlast⟩, -⟩ := b3 r hr
        rw [List.getLast?_concat, Option.map_some, Option.map_eq_some_iff] at hlast
        obtain ⟨l', hl', hk'⟩ := hlast
        rw [hx'.first_id hl', hk'])
      omega
  · exact lone_complete hd hfew hz hroom hout hlen hlone

/-- **C81**: what is returned is exactly what should be, each once. -/
theorem C81_exact {env : TreeEnv} {qs : List Subquery} {opts : MatchOpts} {out : List Context}
    (hd : Delivered qs) (hfew : FewGroupStacks 2000 qs) (hz : env.chk = true ∨ ZoomsAscend qs)
    (hroom : RoomForGroups qs) (hbox : BoxesCover env.toEnv opts qs)
    (hout : stackAndCoalesce env qs opts = some out) (hlen : Short out) :
    out.Nodup ∧ ∀ c, c ∈ out ↔ ShouldReturn env.toEnv opts qs c :=
  ⟨(C80_request hd hout).of_map _, fun c =>
    ⟨C81_sound hd hfew hz hout c, C81_complete hd hfew hz hroom hbox hout hlen c⟩⟩

/-! ## In any order -/

theorem isStack_perm {pms pms' qs : List Subquery} (hp : pms.Perm pms') :
    IsStack pms qs ↔ IsStack pms' qs :=
  ⟨fun h => ⟨fun q hq => hp.mem_iff.1 (h.mem q hq), h.types, h.masks, h.neighbours, h.root⟩,
    fun h => ⟨fun q hq => hp.mem_iff.2 (h.mem q hq), h.types, h.masks, h.neighbours, h.root⟩⟩

theorem extendable_perm {pms pms' qs : List Subquery} (hp : pms.Perm pms') :
    Extendable pms qs ↔ Extendable pms' qs := exists_congr fun _ => isStack_perm hp

theorem lone_perm {pms pms' : List Subquery} {hs : List Hit} (hp : pms.Perm pms') :
    Lone pms hs ↔ Lone pms' hs :=
  exists_congr fun _ => and_congr_right fun _ => not_congr (extendable_perm hp)

theorem loses_perm {pms pms' : List Subquery} {hs : List Hit} (hp : pms.Perm pms') :
    LosesPoints pms hs ↔ LosesPoints pms' hs :=
  or_congr_left (exists_congr fun _ => and_congr_right fun _ => extendable_perm hp)

theorem contextOf_perm {env : Env} {opts : MatchOpts} {pms pms' : List Subquery} {hs : List Hit}
    {c : Context} (hp : pms.Perm pms') (h : ContextOf env opts pms hs c) :
    ContextOf env opts pms' hs c := by
  have hl := lone_perm (hs := hs) hp
  have hlp := loses_perm (hs := hs) hp
  exact ⟨h.ne, (isStack_perm hp).1 h.stack, fun x hx limit a b =>
    h.answers x hx limit (fun y => a (hl.1 y)) (fun y => b (fun z => y (hl.2 z))), h.entries, h.tiles,
    h.mask, fun y => h.plain (fun z => y (hlp.1 z)), fun y => h.penalty (hlp.2 y),
    fun y => h.first (fun z => y (hl.1 z))⟩

theorem shouldReturn_perm {env : Env} {opts : MatchOpts} {pms pms' : List Subquery} {c : Context}
    (hp : pms.Perm pms') (h : ShouldReturn env opts pms c) : ShouldReturn env opts pms' c := by
  rcases h with ⟨hs, h1, h2⟩ | ⟨q, kg, o, grids, all, h1, h2, h3⟩
  · exact Or.inl ⟨hs, fun hl => h1 ((lone_perm hp).2 hl), contextOf_perm hp h2⟩
  · exact Or.inr ⟨q, kg, o, grids, all, (isStack_perm hp).1 h1,
      fun hx => h2 ((extendable_perm hp).2 hx), h3⟩

theorem Spec.Delivered.perm {qs qs' : List Subquery} (hp : qs.Perm qs') (h : Delivered qs) :
    Delivered qs' :=
  ⟨fun q hq => h.one q (hp.mem_iff.2 hq), (hp.flatMap_right _).nodup_iff.1 h.ids,
    fun a ha b hb => h.index a (hp.mem_iff.2 ha) b (hp.mem_iff.2 hb)⟩

theorem Spec.FewGroupStacks.perm {n : ℕ} {qs qs' : List Subquery} (hp : qs.Perm qs')
    (h : FewGroupStacks n qs) : FewGroupStacks n qs' := fun l h1 h2 => h l h1 fun s hs =>
  ⟨(h2 s hs).1, (isStack_perm hp).2 (h2 s hs).2.1,
    fun hx => (h2 s hs).2.2 ((extendable_perm hp).1 hx)⟩

theorem Spec.RoomForGroups.perm {qs qs' : List Subquery} (hp : qs.Perm qs')
    (h : RoomForGroups qs) : RoomForGroups qs' := fun l h1 h2 => h l h1 fun s hs =>
  ⟨(h2 s hs).1, (isStack_perm hp).2 (h2 s hs).2⟩

theorem request_sorted {env : TreeEnv} {qs : List Subquery} {opts : MatchOpts} {out : List Context}
    (hout : stackAndCoalesce env qs opts = some out) :
    out.Pairwise fun a b => b.sortKey ≤ a.sortKey := by
  unfold stackAndCoalesce at hout
  obtain ⟨collapsed, h1, hout⟩ := Option.bind_eq_some_iff.1 hout
  obtain ⟨t, h2, hout⟩ := Option.bind_eq_some_iff.1 hout
  obtain ⟨s₀, s, h1, h2, rfl⟩ := treeCoalesce_some hout
  exact env.contexts.intoVecDesc_sorted _

/-- **C81**: the order phrase matches are handed over in makes no difference to what is returned, nor
do the heaps and the spatial index. -/
theorem C81_any_order {env env' : TreeEnv} (henv : env.toEnv = env'.toEnv)
    {qs qs' : List Subquery} (hp : qs.Perm qs') {opts : MatchOpts} {out out' : List Context}
    (hd : Delivered qs) (hfew : FewGroupStacks 2000 qs) (hz : ZoomsAscend qs)
    (hroom : RoomForGroups qs) (hbox : BoxesCover env.toEnv opts qs)
    (hout : stackAndCoalesce env qs opts = some out)
    (hout' : stackAndCoalesce env' qs' opts = some out') (hlen : Short out) :
    out.Perm out' ∧ out.map Context.sortKey = out'.map Context.sortKey := by
  have hz' : ZoomsAscend qs' := fun a ha b hb => hz a (hp.mem_iff.2 ha) b (hp.mem_iff.2 hb)
  have hbox' : BoxesCover env'.toEnv opts qs' := by
    rw [← henv]
    exact fun h hq => hbox h (hp.mem_iff.2 hq)
  obtain ⟨hn, hm⟩ := C81_exact hd hfew (Or.inr hz) hroom hbox hout hlen
  have hn' : out'.Nodup := (C80_request (hd.perm hp) hout').of_map _
  have hsub : out'.Subperm out := List.subperm_of_subset hn' fun c hc =>
    (hm c).2 (henv ▸ shouldReturn_perm hp.symm
      (C81_sound (hd.perm hp) (hfew.perm hp) (Or.inr hz') hout' c hc))
  have hlen' : Short out' := ⟨lt_of_le_of_lt hsub.length_le hlen.all, fun id =>
    lt_of_le_of_lt (hsub.filter _).length_le (hlen.each id)⟩
  obtain ⟨-, hm'⟩ := C81_exact (hd.perm hp) (hfew.perm hp) (Or.inr hz') (hroom.perm hp) hbox' hout' hlen'
  have hperm : out.Perm out' := (List.perm_ext_iff_of_nodup hn hn').2 fun c => by
    rw [hm, hm', ← henv]
    exact ⟨shouldReturn_perm hp, shouldReturn_perm hp.symm⟩
  refine ⟨hperm, List.Perm.eq_of_pairwise' (r := fun a b => b ≤ a) ?_ ?_ (hperm.map _)⟩
  · exact List.pairwise_map.2 (request_sorted hout)
  · exact List.pairwise_map.2 (request_sorted hout')

section
variable {C : PhraseCrate} {P : PhraseSerde C} {S : Serde}

theorem Spec.AnyRequest.perm {T : SearchSerde} {src : Subquery → Source P S}
    {values values' : List JsValue} {qs : List Subquery} {o : JsValue} {opts : MatchOpts}
    (hp : values.Perm values') (h : AnyRequest T src values qs o opts) :
    ∃ qs', qs.Perm qs' ∧ AnyRequest T src values' qs' o opts := by
  obtain ⟨qs', h1, h2⟩ := List.perm_comp_forall₂ hp.symm h.objects
  have hm : ∀ q, q ∈ qs' → q ∈ qs := fun q hq => h2.mem_iff.1 hq
  exact ⟨qs', h2.symm, h1, fun q hq => h.opened q (hm q hq), h.decoded, h.zoom,
    fun q hq => h.weights q (hm q hq), h.delivered.perm h2.symm,
    fun a ha b hb => h.zooms a (hm a ha) b (hm b hb)⟩

/-- C80 for requests from JavaScript. -/
theorem C80_from_js (hC : FindsPhrases C) {T : SearchSerde} {src : Subquery → Source P S}
    {values : List JsValue} {qs : List Subquery} {o : JsValue} {opts : MatchOpts}
    (h : AnyRequest T src values qs o opts) {env : TreeEnv} (henv : env.chk = false)
    (rest : List JsValue) :
    ∃ out, jsStackAndCoalesce T env (.arr values :: o :: .func :: rest) = .returned (some out) ∧
      (out.map parts).Nodup := by
  obtain ⟨out, hout, hjs⟩ := h.returns hC henv rest
  exact ⟨out, hjs, C80_request h.delivered hout⟩

/-- C81 for requests from JavaScript: the order of the array makes no difference. -/
theorem C81_from_js (hC : FindsPhrases C) {T : SearchSerde} {src : Subquery → Source P S}
    {values values' : List JsValue} {qs : List Subquery} {o : JsValue} {opts : MatchOpts}
    (h : StackRequest T src values qs o opts) (hp : values.Perm values') {env env' : TreeEnv}
    (henv : env.chk = false) (he : env.toEnv = env'.toEnv) (hroom : RoomForGroups qs)
    (hbox : BoxesCover env.toEnv opts qs) (rest rest' : List JsValue) :
    ∃ out out', jsStackAndCoalesce T env (.arr values :: o :: .func :: rest) = .returned (some out) ∧
      jsStackAndCoalesce T env' (.arr values' :: o :: .func :: rest') = .returned (some out') ∧
      (Short out → (∀ c, c ∈ out ↔ ShouldReturn env.toEnv opts qs c) ∧ out.Perm out' ∧
        out.map Context.sortKey = out'.map Context.sortKey) := by
  obtain ⟨qs', hq, h'⟩ := h.toAnyRequest.perm hp
  obtain ⟨out, hout, hjs⟩ := h.returns hC henv rest
  obtain ⟨out', hout', hjs'⟩ := h'.returns hC (env := env') (by
    have := congrArg Env.chk he
    rw [← this]
    exact henv) rest'
  exact ⟨out, out', hjs, hjs', fun hs =>
    ⟨(C81_exact h.delivered h.few (Or.inr h.zooms) hroom hbox hout hs).2,
      C81_any_order he hq h.delivered h.few h.zooms hroom hbox hout hout' hs⟩⟩

end

/-! ## A case -/

/-- The boxes of the indexes contain everything that answers, by looking. -/
theorem boxesCover_of {env : Env} {opts : MatchOpts} {pms : List Subquery}
    (h : ∀ q ∈ pms, ∀ kg ∈ q.matchKeys, ((lookupOpts env opts q kg).bind fun o =>
      (env.query q.store kg.key o 100000).map fun grids => grids.all fun g =>
        q.store.bboxes.any fun b => decide (b.minX ≤ g.entry.x ∧ g.entry.x ≤ b.maxX ∧
          b.minY ≤ g.entry.y ∧ g.entry.y ≤ b.maxY)) = some true) :
    BoxesCover env opts pms := by
  rintro hit hq ⟨hk, o, before, after, e1, e2, -⟩
  have := h _ hq _ hk
  rw [e1, Option.bind_some, e2, Option.map_some, Option.some.injEq, List.all_eq_true] at this
  have := this hit.grid (by simp)
  simp only [List.any_eq_true, decide_eq_true_eq] at this
  exact this

theorem region_street_boxes : BoxesCover (listTreeEnv false).toEnv plainOpts
    [regionTreeMatch, streetTreeMatch] := boxesCover_of (by decide +kernel)

/-- What comes back for a street in a region is short, and the same in either order. -/
example : ∃ out out', stackAndCoalesce (listTreeEnv false) [regionTreeMatch, streetTreeMatch]
      plainOpts = some out ∧
    stackAndCoalesce (listTreeEnv false) [streetTreeMatch, regionTreeMatch] plainOpts = some out' ∧
    out.length = 6 ∧ Short out ∧ out.Perm out' ∧
    ∀ c, c ∈ out ↔ ShouldReturn (listTreeEnv false).toEnv plainOpts
      [regionTreeMatch, streetTreeMatch] c := by
  have h1 : ((stackAndCoalesce (listTreeEnv false) [regionTreeMatch, streetTreeMatch]
      plainOpts).map List.length) = some 6 := by decide +kernel
  have h2 : ((stackAndCoalesce (listTreeEnv false) [streetTreeMatch, regionTreeMatch]
      plainOpts).map List.length) = some 6 := by decide +kernel
  obtain ⟨out, h1, h3⟩ := Option.map_eq_some_iff.1 h1
  obtain ⟨out', h2, -⟩ := Option.map_eq_some_iff.1 h2
  have hd : Delivered [regionTreeMatch, streetTreeMatch] :=
    ⟨by decide +kernel, by decide +kernel, by decide +kernel⟩
  have hfew : FewGroupStacks 2000 [regionTreeMatch, streetTreeMatch] :=
    few_of_small (by decide +kernel)
  have hroom : RoomForGroups [regionTreeMatch, streetTreeMatch] :=
    room_of_small (by decide +kernel) (by decide +kernel) (by
      intro q hq kg hk
      simp only [List.mem_cons, List.not_mem_nil, or_false] at hq
      rcases hq with rfl | rfl <;> exact ⟨_, by rw [List.mem_singleton.1 hk]⟩)
  have hz : ZoomsAscend [regionTreeMatch, streetTreeMatch] := by
    unfold ZoomsAscend
    decide +kernel
  have hs : Short out := ⟨by omega, fun id => lt_of_le_of_lt (List.length_filter_le _ _) (by omega)⟩
  exact ⟨out, out', h1, h2, h3, hs,
    (C81_any_order rfl (List.Perm.swap _ _ _) hd hfew hz hroom region_street_boxes h1 h2 hs).1,
    (C81_exact hd hfew (Or.inr hz) hroom region_street_boxes h1 hs).2⟩

/-- The hypotheses of C81 for a request from JavaScript for "main" in two indexes. -/
example : StackRequest worldSearch foundSource [foundItem 1, foundItem 2] [foundMatch 1, foundMatch 2]
      foundOpts ⟨none, none, 6⟩ ∧ RoomForGroups [foundMatch 1, foundMatch 2] ∧
    [foundItem 1, foundItem 2].Perm [foundItem 2, foundItem 1] ∧
    BoxesCover (listTreeEnv false).toEnv ⟨none, none, 6⟩ [foundMatch 1, foundMatch 2] ∧
    (match jsStackAndCoalesce worldSearch (listTreeEnv false)
      [.arr [foundItem 1, foundItem 2], foundOpts, .func] with
    | .returned (some out) => decide (0 < out.length ∧ out.length < 40)
    | _ => false) = true :=
  ⟨found_request, found_room, List.Perm.swap _ _ _, boxesCover_of (by decide +kernel), by decide +kernel⟩

end Carmen
