import Verif.Props.Exact
import Verif.Props.TreeComplete
import Verif.Lemmas.SameAnswers
import Verif.Lemmas.TreeOpen

/-!
# C91: exactly what is returned, whatever the bounding boxes say
-/

namespace Carmen
open Spec

theorem over_same {env : Env} {opts : MatchOpts} {P : Subquery × KeyWithId → Prop}
    {pre ls : List Level} (h : Over P env opts (pre.map Level.node) ls)
    (hpm : ∀ l ∈ pre, l.node.pm = some l.q) : ls.map Level.q = pre.map Level.q := by
  have e : ∀ m : List Level, (∀ l ∈ m, l.node.pm = some l.q) →
      (m.map Level.q).map some = (m.map Level.node).map StackNode.pm := by
    intro m hm
    rw [List.map_map, List.map_map]
    exact List.map_congr_left fun l hl => (hm l hl).symm
  refine List.map_injective_iff.2 (Option.some_injective _) ?_
  rw [e ls fun l hl => (h.answers l hl).1, e pre hpm, h.nodes]

/-- An open path of the tree, in terms of phrase matches. -/
theorem hitsOpen_of_path {env : Env} {opts : MatchOpts} {ls : List Level}
    (ho : PathOpen AnyScan env opts (ls.map Level.node)) (hpm : ∀ l ∈ ls, l.node.pm = some l.q)
    (ht : ls.IsChain fun a b => TileContains a.tile b.tile) :
    HitsOpen AnyScan env opts ((ls.map Level.hit).map Hit.q) := by
  intro above q below he hne
  rw [List.map_map] at he
  obtain ⟨pre, rest, rfl, rfl, hrest⟩ := List.map_eq_append_iff.1 he
  obtain ⟨l', post, rfl, rfl, rfl⟩ := List.map_eq_cons_iff.1 hrest
  have hne : pre ≠ [] := by simpa using hne
  obtain ⟨up, k, hov, hm⟩ := ho (pre.map Level.node) l'.node (post.map Level.node) (by simp)
    (by simpa using hne) l'.q (hpm l' (by simp))
  have hsame := over_same hov fun l hl => hpm l (List.mem_append_left _ hl)
  rcases List.eq_nil_or_concat pre with rfl | ⟨pre', p, rfl⟩
  · exact absurd rfl hne
  rw [List.concat_eq_append] at *
  have hkp : k.q = p.q := by
    rw [List.map_append, List.map_append] at hsame
    exact List.singleton_inj.1 (List.append_inj' hsame rfl).2
  rw [List.append_assoc, List.singleton_append] at ht
  have ht := (List.isChain_append.1 ht).2.1
  rw [List.isChain_cons_cons] at ht
  have hz : p.q.store.zoom ≤ l'.q.store.zoom := ht.1.1
  refine ⟨up.map Level.hit, k.hit, ?_, ?_, ?_, hm (by rw [hkp]; exact hz)⟩
  · rw [← List.map_singleton (f := Level.hit), ← List.map_append, List.map_map]
    exact hsame
  · intro h hh
    rw [← List.map_singleton (f := Level.hit), ← List.map_append] at hh
    obtain ⟨l, hl, rfl⟩ := List.mem_map.1 hh
    exact ⟨(hov.answers l hl).2, trivial⟩
  · rw [← List.map_singleton (f := Level.hit), ← List.map_append, List.isChain_map]
    exact hov.tiles

/-- Nothing is returned from stacks that are cut. -/
theorem tree_open_sound {env : TreeEnv} {sm : ℕ} {pms : List Subquery} {t : StackTree}
    {opts : MatchOpts} {out : List Context} (h : stackableWith sm pms = some t)
    (hnd : pms.Nodup) (hfew : FewStacks sm pms) (hids : IdsUnique pms)
    (hz : env.chk = true ∨ ZoomsAscend pms) (hout : treeCoalesce env t opts = some out) :
    ∀ c ∈ out, (∃ hs, ¬ Lone pms hs ∧ HitsOpen AnyScan env.toEnv opts (hs.map Hit.q) ∧
      ContextOf env.toEnv opts pms hs c) ∨ LoneResult env.toEnv opts pms c := by
  have hlim := (few_below_limit h hnd hfew).1
  obtain ⟨s₀, s, h1, h2, rfl⟩ := treeCoalesce_some hout
  intro c hc
  have hr : RunOk env t opts pms := ⟨⟨sm, h⟩, hids, hz⟩
  rcases treeLoop_open hr h1 h2 c ((env.contexts.intoVecDesc_perm _).mem_iff.1 hc) with
    ⟨ls, hna, hopen, hls⟩ | ⟨node, q, kg, o, grids, all, hp, hpm, hch, hk, e1, e2, e3, hca⟩
  · have hpm : ∀ l ∈ ls, l.node.pm = some l.q := fun l hl =>
      (hls.answers l hl 100000 (fun hn => absurd hn hna) (fun _ => rfl)).1
    refine Or.inl ⟨_, fun hl => hna ?_, hitsOpen_of_path hopen hpm hls.tiles,
      (stackedFrom_iff h hnd (whole_of_lim h hlim _) hls.path hpm).1 hls⟩
    refine (alone_iff (pms := pms) ?_).2 hl
    rintro l rfl
    exact children_iff h hnd (whole_of_lim h hlim _) hls.path (hpm l (by simp))
  · refine Or.inr ⟨q, kg, o, grids, all, ?_, ?_, hk, e1, e2, e3, hca⟩
    · exact levels_isStack (ls := [⟨node, q, kg, ⟨⟨0, 0, 0, 0, 0, 0⟩, false, 0, 0⟩⟩]) h hp
        (by simpa using hpm)
    · rw [← children_iff h hnd (whole_of_lim h hlim _) hp hpm]
      exact not_not_intro hch

theorem groupKeys_bare {as bs : List Hit} (h : as.map Hit.bare = bs.map Hit.bare) :
    groupKeys (as.map Hit.q) = groupKeys (bs.map Hit.q) := by
  have e : ∀ l : List Hit, groupKeys (l.map Hit.q) =
      (l.map Hit.bare).map fun h => (h.q.weight, h.q.idx, h.q.mask) := by
    intro l
    unfold groupKeys
    rw [List.map_map, List.map_map]
    rfl
  rw [e, e, h]

theorem firstAnswer_orig {env : Env} {opts : MatchOpts} {qs collapsed : List Subquery}
    {rep : Subquery → Subquery} {orig : Subquery → KeyWithId → Subquery} {grp : Subquery → Subquery}
    (hr : Regroups qs collapsed rep orig grp) {h : Hit} (hq : h.q ∈ collapsed)
    (ha : h.FirstAnswer env opts) : Hit.FirstAnswer env opts { h with q := orig h.q h.kg } := by
  obtain ⟨hk, o, before, after, e1, e2, e3⟩ := ha
  obtain ⟨_, g2, g3⟩ := hr.orig_mem _ hq _ hk
  have hs : (orig h.q h.kg).store = h.q.store := store_of_bare g2
  refine ⟨by rw [g3]; exact List.mem_singleton_self _, o, before, after, ?_, ?_, e3⟩
  · unfold lookupOpts at e1 ⊢
    rw [hs]
    exact e1
  · rw [hs]
    exact e2

/-- Nothing is cut off among the phrase matches the collapsed ones came from. -/
theorem notCut_orig {env : Env} {opts : MatchOpts} {qs collapsed : List Subquery}
    {rep : Subquery → Subquery} {orig : Subquery → KeyWithId → Subquery} {grp : Subquery → Subquery}
    (hr : Regroups qs collapsed rep orig grp) {hs : List Hit}
    (hk : ∀ h ∈ hs, h.q ∈ collapsed ∧ h.kg ∈ h.q.matchKeys)
    (ho : HitsOpen AnyScan env opts (hs.map Hit.q)) :
    NotCut env opts qs ((origHits orig hs).map Hit.q) := by
  intro above q below he hne
  unfold origHits at he
  rw [List.map_map] at he
  obtain ⟨pre, rest, rfl, rfl, hrest⟩ := List.map_eq_append_iff.1 he
  obtain ⟨l', post, rfl, rfl, rfl⟩ := List.map_eq_cons_iff.1 hrest
  obtain ⟨tops, last, e1, e2, e3, e4⟩ := ho (pre.map Hit.q) l'.q (post.map Hit.q) (by simp)
    (by simpa using hne)
  have hm : ∀ h ∈ tops ++ [last], h.q ∈ collapsed ∧ h.kg ∈ h.q.matchKeys := by
    intro h hh
    refine ⟨?_, (e2 h hh).1.1⟩
    have : h.q ∈ pre.map Hit.q := e1 ▸ List.mem_map_of_mem hh
    obtain ⟨x, hx, hxe⟩ := List.mem_map.1 this
    rw [← hxe]
    exact (hk x (List.mem_append_left _ hx)).1
  obtain ⟨hb, hb'⟩ := hr.orig_bare hm
  obtain ⟨pb, _⟩ := hr.orig_bare fun h hh => hk h (List.mem_append_left _ hh)
  have hsplit : origHits orig (tops ++ [last]) =
      origHits orig tops ++ [({ last with q := orig last.q last.kg } : Hit)] := by
    unfold origHits
    simp
  refine ⟨origHits orig tops, { last with q := orig last.q last.kg }, ⟨?_, ?_, ?_, ?_⟩, ?_⟩
  · rw [← hsplit, groupKeys_bare hb]
    have := groupKeys_bare pb
    unfold origHits at this
    rw [List.map_map] at this
    rw [this]
    unfold groupKeys
    rw [e1]
  · rw [← hsplit]
    exact fun h hh => (hb' h hh).1
  · rw [← hsplit]
    intro h hh
    obtain ⟨h0, hh0, rfl⟩ := List.mem_map.1 hh
    exact firstAnswer_orig hr (hm h0 hh0).1 (e2 h0 hh0).1
  · rw [← hsplit]
    have e : ((tops ++ [last]).map Hit.bare).IsChain fun a b => TileContains a.tile b.tile := by
      rw [List.isChain_map]
      exact e3
    rw [← hb, List.isChain_map] at e
    exact e
  · have hl' := hk l' (by simp)
    have hla := hm last (by simp)
    have s1 : (orig l'.q l'.kg).store = l'.q.store :=
      store_of_bare (hr.orig_mem _ hl'.1 _ hl'.2).2.1
    have s2 : (orig last.q last.kg).store = last.q.store :=
      store_of_bare (hr.orig_mem _ hla.1 _ hla.2).2.1
    show Meets (orig l'.q l'.kg).store (orig last.q last.kg).store.zoom _ _
    rw [s1, s2]
    exact e4

/-- C91: nothing is returned from hits on a stack that is cut, however right the hits are. -/
theorem C91_sound {env : TreeEnv} {qs : List Subquery} {opts : MatchOpts} {out : List Context}
    (hd : Delivered qs) (hfew : FewGroupStacks 2000 qs) (hz : env.chk = true ∨ ZoomsAscend qs)
    (hout : stackAndCoalesce env qs opts = some out) :
    ∀ c ∈ out, IsReturned env.toEnv opts qs c := by
  intro c hc
  have hout0 := hout
  unfold stackAndCoalesce at hout
  obtain ⟨collapsed, h1, hout⟩ := Option.bind_eq_some_iff.1 hout
  obtain ⟨t, h2, hout⟩ := Option.bind_eq_some_iff.1 hout
  obtain ⟨rep, orig, grp, hr⟩ := collapse_regroups hd h1
  rcases tree_open_sound h2 hr.nodup (hr.fewStacks hfew) (hr.idsUnique hd)
    (hz.imp_right hr.zooms) hout c hc with ⟨hs, hl, ho, hcx⟩ |
      ⟨q, kg, o, grids, all, hst, hx, hk, e1, e2, e3, hca⟩
  · obtain ⟨hb, hk⟩ := hr.orig_bare hcx.keys
    refine Or.inl ⟨_, ?_, notCut_orig hr hcx.keys ho,
      contextOf_move hr.covers hr.covers' hb (fun h hh => (hcx.keys h hh).1)
      (fun h hh => (hk h hh).1) (fun h hh => (hk h hh).2) hcx⟩
    rwa [← lone_move hr.covers hr.covers' hb (fun h hh => (hcx.keys h hh).1)
      (fun h hh => (hk h hh).1)]
  · have hq := hst.mem q (by simp)
    obtain ⟨i1, i2, i3⟩ := hr.orig_mem q hq kg hk
    have hs : (orig q kg).store = q.store := store_of_bare i2
    refine Or.inr ⟨orig q kg, kg, o, grids, all,
      isStack_move (by simp [i2]) (by simpa using i1) hst, fun hx' => hx ?_,
      by rw [i3]; exact List.mem_singleton_self _, ?_, by rw [hs]; exact e2, ?_, hca⟩
    · exact extendable_move hr.covers' (by simp [i2]) (by simpa using hq) hx'
    · unfold lookupOpts at e1 ⊢
      rw [hs]
      exact e1
    · rw [treeSingle_bare i2]
      exact e3

/-- C91: everything from hits on stacks that are not cut is returned, also where the bounding boxes
do not contain the hits, when the list is short and there is room. -/
theorem C91_complete {env : TreeEnv} {qs : List Subquery} {opts : MatchOpts} {out : List Context}
    (hd : Delivered qs) (hfew : FewGroupStacks 2000 qs) (hz : env.chk = true ∨ ZoomsAscend qs)
    (hroom : RoomForGroups qs)
    (hout : stackAndCoalesce env qs opts = some out) (hlen : Short out) :
    ∀ c, IsReturned env.toEnv opts qs c → c ∈ out := by
  rintro c (⟨hs, hl, hcut, hcx⟩ | hlone)
  · have hup : GroupsClimb (RoomInGroups qs) env.toEnv opts qs hs := by
      refine ⟨hcx.ne, hl, hcx.stack, hcx.first hl, hcx.tiles, fun above q below he hne => ?_⟩
      obtain ⟨tops, last, h1, h2⟩ := hcut above q below he hne
      exact ⟨tops, last, h1, fun h _ => hroom.toTry.for _, h2⟩
    obtain ⟨tops, _, hall⟩ := groups_full_open hd hfew hz hout
    have h800 := hlen.all
    have hnd : ¬ HitsDropped env.toEnv opts qs hs out := by
      refine not_hitsDropped (hroom [hs.map Hit.q] (by simp) ?_) fun h hh => (hup.answers h hh).1
      intro qs hqs
      rw [List.mem_singleton.1 hqs]
      exact ⟨by simpa using hup.ne, hup.stack⟩
    rcases hall hs hup fun h _ => hroom.toTry.for _ with
      ((⟨c', hc', hcx'⟩ | ⟨b, b1, b2, b3⟩) | hdr) | ⟨h8, _⟩
    · rw [contextOf_unique hcx hcx']
      exact hc'
    · obtain ⟨above, last, rfl⟩ := (List.eq_nil_or_concat' hs).resolve_left hcx.ne
      have := hlen.not_many b1 (id := last.kg.id) (fun r hr => by
        obtain ⟨⟨hs', hx', -, hlast⟩, -⟩ := b3 r hr
        rw [List.getLast?_concat, Option.map_some, Option.map_eq_some_iff] at hlast
        obtain ⟨l', hl', hk'⟩ := hlast
        rw [hx'.first_id hl', hk'])
      omega
    · exact absurd hdr hnd
    · omega
  · exact lone_complete hd hfew hz hroom hout hlen hlone

/-- **C91**: what is returned is exactly what the boxes let through, each once; nothing is asked of
the boxes. -/
theorem C91_exact {env : TreeEnv} {qs : List Subquery} {opts : MatchOpts} {out : List Context}
    (hd : Delivered qs) (hfew : FewGroupStacks 2000 qs) (hz : env.chk = true ∨ ZoomsAscend qs)
    (hroom : RoomForGroups qs)
    (hout : stackAndCoalesce env qs opts = some out) (hlen : Short out) :
    out.Nodup ∧ ∀ c, c ∈ out ↔ IsReturned env.toEnv opts qs c :=
  ⟨(C80_request hd hout).of_map _, fun c =>
    ⟨C91_sound hd hfew hz hout c, C91_complete hd hfew hz hroom hout hlen c⟩⟩

/-- C91: where the boxes contain what answers, nothing is cut. -/
theorem C91_covered {env : Env} {opts : MatchOpts} {pms : List Subquery} {c : Context}
    (hbox : BoxesCover env opts pms) : IsReturned env opts pms c ↔ ShouldReturn env opts pms c := by
  refine or_congr_left (exists_congr fun hs => and_congr_right fun hl =>
    ⟨fun h => h.2, fun hcx => ⟨?_, hcx⟩⟩)
  have hup : HitsStackUp env opts pms hs := ⟨hcx.ne, hl, hcx.stack, hcx.first hl,
    fun h hh => hbox h (hcx.keys h hh).1 (hcx.first hl h hh), hcx.tiles⟩
  intro above q below he hne
  obtain ⟨tops, last, h1, _, h2⟩ := (hup.climb (P := fun _ => True) fun _ _ => trivial).groups.opened
    above q below he hne
  exact ⟨tops, last, h1, h2⟩

/-- C91: for requests of any size whose quotas are enough, hits on a stack that is not cut are only
missed for the reasons of C79, whatever the boxes say about them. -/
theorem C91_any {env : TreeEnv} {qs : List Subquery} {opts : MatchOpts} {out : List Context}
    (hd : Delivered qs) (hf : FewTypes qs) (hz : env.chk = true ∨ ZoomsAscend qs)
    (hw : WeightsPositive qs) (hroom : RoomToTryGroups qs)
    (hout : stackAndCoalesce env qs opts = some out) :
    ∃ tops : List (List Subquery), tops.length ≤ 7 ∧
    ∀ hs, HitsGoThrough env.toEnv opts qs hs →
    (∃ c ∈ out, ContextOf env.toEnv opts qs hs c) ∨
    (∃ better : List Context, better.Subperm out ∧ better.length = 40 ∧ ∀ r ∈ better,
      (∃ hs', ContextOf env.toEnv opts qs hs' r ∧ SameLastGroup hs' hs) ∧
      ∀ c, ContextOf env.toEnv opts qs hs c → RanksBefore r c) ∨
    NotWorthTrying env.toEnv opts qs hs out ∨
    (out.length = 800 ∧ ((∀ c, ContextOf env.toEnv opts qs hs c → ∀ r ∈ out, c.relev ≤ r.relev) ∨
      ContinuesGroup tops (hs.map Hit.q))) ∨
    Crowded 2000 qs (hs.map Hit.q) := by
  obtain ⟨tops, h7, hall⟩ := groups_any_open hd (weightsOk_of_positive hw) hf hz hout
  refine ⟨tops, h7, fun hs hup => ?_⟩
  by_cases hc : Crowded 2000 qs (hs.map Hit.q)
  · exact Or.inr (Or.inr (Or.inr (Or.inr hc)))
  have hup' : GroupsClimb (RoomInGroups qs) env.toEnv opts qs hs := by
    refine ⟨hup.ne, hup.notLone, hup.stack, hup.answers, hup.tiles, fun above q below he hne => ?_⟩
    obtain ⟨tops, last, h1, h2⟩ := hup.notCut above q below he hne
    exact ⟨tops, last, h1, fun h _ => hroom.for _, h2⟩
  rcases hall hs hup' (fun h _ => hroom.for _) hc with
    ((h | h) | ⟨above, last, h1, h2, h3, h4⟩) | ⟨h1, h2⟩
  · exact Or.inl h
  · exact Or.inr (Or.inl h)
  · exact Or.inr (Or.inr (Or.inl ⟨above, last, h1, h2, h3, h4 hw⟩))
  · exact Or.inr (Or.inr (Or.inr (Or.inl
      ⟨h1, h2.imp (fun h => h (weightsOk_of_positive hw)) id⟩)))

/-! ## Other boxes -/

theorem Spec.Widens.meets {s : Store} {bs : List BBox} {zoom x y : ℕ} (h : Widens s bs)
    (hm : Meets s zoom x y) : Meets { s with bboxes := bs } zoom x y := by
  obtain ⟨b, hb, h1, h2, h3, h4⟩ := hm
  obtain ⟨b', hb', g1, g2, g3, g4⟩ := h b hb
  exact ⟨b', hb', (Nat.div_le_div_right g1).trans h1, h2.trans (Nat.div_le_div_right g3),
    (Nat.div_le_div_right g2).trans h3, h4.trans (Nat.div_le_div_right g4)⟩

/-- Lookups do not see the bounding boxes of the index. -/
theorem query_boxes (env : Env) (s : Store) (bs : List BBox) (mk : MatchKey) (o : MatchOpts)
    (n : ℕ) : env.query { s with bboxes := bs } mk o n = env.query s mk o n := by
  have hf : ∀ rows q, Store.fillQueue env.merger env.rows env.chk { s with bboxes := bs } mk o n q rows =
      Store.fillQueue env.merger env.rows env.chk s mk o n q rows := by
    intro rows
    induction rows with
    | nil => exact fun _ => rfl
    | cons r rows ih =>
      intro q
      unfold Store.fillQueue
      simp only [ih]
      rfl
  unfold Env.query Store.getMatching
  simp only [hf]
  rfl

theorem withBoxes_moves (env : Env) (opts : MatchOpts) (f : Store → List BBox)
    (qs : List Subquery) :
    Moves env opts opts (withBoxes f) (fun _ kg => kg) qs (qs.map (withBoxes f)) :=
  ⟨⟨⟨fun _ => rfl, fun _ => rfl, fun _ => rfl, fun q => by simp [withBoxes],
    fun _ _ => rfl, fun _ _ => rfl,
    fun _ _ => rfl, fun _ hq => List.mem_map_of_mem hq, fun _ hq' => List.mem_map.1 hq'⟩,
    fun _ _ _ _ h _ _ => h⟩, fun _ _ kg _ n => by
      unfold answersTo
      simp only [withBoxes, query_boxes]
      rfl, ⟨fun _ _ => rfl, fun _ _ => rfl, fun _ _ _ _ hw => hw⟩, fun _ => rfl⟩

theorem withBoxes_delivered {f : Store → List BBox} {qs : List Subquery} (h : Delivered qs) :
    Delivered (qs.map (withBoxes f)) := by
  refine ⟨?_, ?_, ?_⟩
  · intro q hq
    obtain ⟨a, ha, rfl⟩ := List.mem_map.1 hq
    exact h.one a ha
  · rw [List.flatMap_map]
    exact h.ids
  · intro a ha b hb hab
    obtain ⟨a, ha', rfl⟩ := List.mem_map.1 ha
    obtain ⟨b, hb', rfl⟩ := List.mem_map.1 hb
    obtain ⟨h1, h2⟩ := h.index a ha' b hb' hab
    refine ⟨?_, h2⟩
    unfold withBoxes
    rw [h1]

theorem withBoxes_zooms {f : Store → List BBox} {qs : List Subquery} (h : ZoomsAscend qs) :
    ZoomsAscend (qs.map (withBoxes f)) := by
  intro a ha b hb
  obtain ⟨a, ha', rfl⟩ := List.mem_map.1 ha
  obtain ⟨b, hb', rfl⟩ := List.mem_map.1 hb
  exact h a ha' b hb'

theorem Moves.hitsOver {env : Env} {opts : MatchOpts} {mv : Subquery → Subquery}
    {mk : Subquery → KeyWithId → KeyWithId} {pms pms' : List Subquery}
    (hmv : Moves env opts opts mv mk pms pms') {above : List Subquery}
    (ha : ∀ q ∈ above, q ∈ pms) {hs : List Hit} (h : HitsOver env opts pms above hs) :
    HitsOver env opts pms' (above.map mv) (hs.map (moveKey mv mk)) := by
  refine ⟨?_, ?_, ?_, ?_⟩
  · have e : (hs.map (moveKey mv mk)).map Hit.q = (hs.map Hit.q).map mv := by
      rw [List.map_map, List.map_map]; rfl
    rw [e]
    refine hmv.toShapes.groupKeys (fun q hq => ?_) ha h.keys
    obtain ⟨x, hx, rfl⟩ := List.mem_map.1 hq
    exact h.mem x hx
  · intro x hx
    obtain ⟨a, ha', rfl⟩ := List.mem_map.1 hx
    exact hmv.mem _ (h.mem a ha')
  · intro x hx
    obtain ⟨a, ha', rfl⟩ := List.mem_map.1 hx
    exact (hmv.firstAnswer ⟨h.mem a ha', (h.answers a ha').1⟩).2 (h.answers a ha')
  · have e : (hs.map (moveKey mv mk)).map Hit.tile = hs.map Hit.tile := by
      rw [List.map_map]
      exact List.map_congr_left fun x hx => hmv.toShapes.tile (h.mem x hx)
    rw [← List.isChain_map (R := TileContains) Hit.tile, e, List.isChain_map]
    exact h.tiles

/-- Wider boxes let everything through that was let through before. -/
theorem isReturned_wider {env : Env} {opts : MatchOpts} {f : Store → List BBox}
    {qs : List Subquery} (hf : ∀ q ∈ qs, Widens q.store (f q.store)) {c : Context}
    (h : IsReturned env opts qs c) : IsReturned env opts (qs.map (withBoxes f)) c := by
  have hmv := withBoxes_moves env opts f qs
  refine h.imp ?_ (hmv.loneResult rfl).2
  rintro ⟨hs, hl, hcut, hcx⟩
  have hq1 : ∀ h ∈ hs, h.q ∈ qs := fun h hh => hcx.stack.mem _ (List.mem_map_of_mem hh)
  have hq : ∀ h ∈ hs, h.q ∈ qs ∧ h.kg ∈ h.q.matchKeys := fun h hh => ⟨hq1 h hh, (hcx.first hl h hh).1⟩
  refine ⟨hs.map (moveKey (withBoxes f) fun _ kg => kg), fun x => hl ((hmv.toShapes.lone hq1).1 x), ?_,
    (hmv.contextOf hq).2 hcx⟩
  intro above q below he hne
  have e : (hs.map (moveKey (withBoxes f) fun _ kg => kg)).map Hit.q = (hs.map Hit.q).map (withBoxes f) := by
    rw [List.map_map, List.map_map]; rfl
  rw [e] at he
  obtain ⟨above, rest, hsplit, rfl, hrest⟩ := List.map_eq_append_iff.1 he
  obtain ⟨q, below, rfl, rfl, rfl⟩ := List.map_eq_cons_iff.1 hrest
  obtain ⟨tops, last, h1, h2⟩ := hcut above q below hsplit (by simpa using hne)
  refine ⟨tops.map (moveKey (withBoxes f) fun _ kg => kg),
    moveKey (withBoxes f) (fun _ kg => kg) last, ?_, ?_⟩
  · have := hmv.hitsOver (fun a ha => hcx.stack.mem a (by rw [hsplit]; simp [ha])) h1
    rwa [List.map_append] at this
  · refine Spec.Widens.meets (s := q.store) (hf q ?_) h2
    exact hcx.stack.mem q (by rw [hsplit]; simp)

/-- **C91**: making the bounding boxes of indexes wider never takes a result away, if the longer list
is still short. -/
theorem C91_wider {env : TreeEnv} {qs : List Subquery} {opts : MatchOpts}
    {out out' : List Context} {f : Store → List BBox}
    (hd : Delivered qs) (hfew : FewGroupStacks 2000 qs) (hz : env.chk = true ∨ ZoomsAscend qs)
    (hroom : RoomForGroups qs) (hf : ∀ q ∈ qs, Widens q.store (f q.store))
    (hout : stackAndCoalesce env qs opts = some out)
    (hout' : stackAndCoalesce env (qs.map (withBoxes f)) opts = some out') (hlen : Short out') :
    ∀ c ∈ out, c ∈ out' := by
  have hmv := withBoxes_moves env.toEnv opts f qs
  intro c hc
  exact C91_complete (withBoxes_delivered hd) (hmv.toShapes.few hfew) (hz.imp_right withBoxes_zooms)
    (hmv.toShapes.room hmv.toSameCost hroom) hout' hlen c (isReturned_wider hf (C91_sound hd hfew hz hout c hc))

/-! ## Cases -/

/-- The street index with these bounding boxes. -/
def streetBoxes (bs : List BBox) : List Subquery :=
  [regionTreeMatch, streetTreeMatch].map (withBoxes fun s => if s.zoom = 8 then bs else s.bboxes)

theorem streetBoxes_hyps (bs : List BBox) : Delivered (streetBoxes bs) ∧
    FewGroupStacks 2000 (streetBoxes bs) ∧ ZoomsAscend (streetBoxes bs) ∧
    RoomForGroups (streetBoxes bs) := by
  have hmv := withBoxes_moves (listTreeEnv false).toEnv plainOpts
    (fun s => if s.zoom = 8 then bs else s.bboxes) [regionTreeMatch, streetTreeMatch]
  refine ⟨withBoxes_delivered ⟨by decide +kernel, by decide +kernel, by decide +kernel⟩,
    hmv.toShapes.few (few_of_small (by decide +kernel)), withBoxes_zooms ?_,
    hmv.toShapes.room hmv.toSameCost (room_of_small (by decide +kernel) (by decide +kernel) ?_)⟩
  · unfold ZoomsAscend
    decide +kernel
  · intro q hq kg hk
    simp only [List.mem_cons, List.not_mem_nil, or_false] at hq
    rcases hq with rfl | rfl <;> exact ⟨_, by rw [List.mem_singleton.1 hk]⟩

theorem short_of_few {out : List Context} (h : out.length < 40) : Short out :=
  ⟨by omega, fun id => lt_of_le_of_lt (List.length_filter_le _ _) h⟩

/-- C91: a box elsewhere cuts the street in the region off, though it should be returned. -/
theorem C91_cut : ∃ out c, stackAndCoalesce (listTreeEnv false) (streetBoxes [⟨100, 100, 101, 101⟩])
      plainOpts = some out ∧ Short out ∧
    ShouldReturn (listTreeEnv false).toEnv plainOpts (streetBoxes [⟨100, 100, 101, 101⟩]) c ∧
    ¬ IsReturned (listTreeEnv false).toEnv plainOpts (streetBoxes [⟨100, 100, 101, 101⟩]) c := by
  obtain ⟨d1, d2, d3, d4⟩ := streetBoxes_hyps [⟨100, 100, 101, 101⟩]
  obtain ⟨e1, e2, e3, e4⟩ := streetBoxes_hyps [⟨0, 0, 255, 255⟩]
  have h1 : ((stackAndCoalesce (listTreeEnv false) (streetBoxes [⟨100, 100, 101, 101⟩])
      plainOpts).map fun out => out.map fun c => c.entries.length) = some [1, 1, 1, 1] := by
    decide +kernel
  have h2 : ((stackAndCoalesce (listTreeEnv false) (streetBoxes [⟨0, 0, 255, 255⟩])
      plainOpts).map fun out => out.map fun c => c.entries.length) = some [2, 2, 1, 1, 1, 1] := by
    decide +kernel
  obtain ⟨out, h1, k1⟩ := Option.map_eq_some_iff.1 h1
  obtain ⟨out', h2, k2⟩ := Option.map_eq_some_iff.1 h2
  have hl : out.length = 4 := by simpa using congrArg List.length k1
  have hs : Short out := short_of_few (by omega)
  cases out' with
  | nil => cases k2
  | cons c t =>
    have hc2 : c.entries.length = 2 := by
      rw [List.map_cons, List.cons.injEq] at k2
      exact k2.1
    refine ⟨out, c, h1, hs, ?_, fun hr => ?_⟩
    · have := C81_sound e1 e2 (Or.inr e3) h2 c List.mem_cons_self
      exact (withBoxes_moves _ _ _ _).shouldReturn rfl |>.2
        (((withBoxes_moves _ _ _ _).shouldReturn rfl).1 this)
    · have hm := (C91_exact d1 d2 (Or.inr d3) d4 h1 hs).2 c |>.2 hr
      have : c.entries.length ∈ out.map fun c => c.entries.length :=
        List.mem_map_of_mem (f := fun c : Context => c.entries.length) hm
      rw [k1, hc2] at this
      simp at this

/-- C91: a box that leaves the street out but meets the tile of the region lets it through. -/
example : ∃ out, stackAndCoalesce (listTreeEnv false) (streetBoxes [⟨6, 10, 7, 11⟩]) plainOpts =
      some out ∧ out.map (fun c => c.entries.map fun e => (e.entry.x, e.entry.y, e.entry.id)) =
        [[(5, 9, 7), (1, 2, 3)], [(5, 9, 7), (1, 2, 4)], [(5, 9, 7)], [(40, 40, 8)], [(1, 2, 3)],
          [(1, 2, 4)]] ∧
    Short out ∧ ∀ c, c ∈ out ↔
      IsReturned (listTreeEnv false).toEnv plainOpts (streetBoxes [⟨6, 10, 7, 11⟩]) c := by
  obtain ⟨d1, d2, d3, d4⟩ := streetBoxes_hyps [⟨6, 10, 7, 11⟩]
  have h1 : ((stackAndCoalesce (listTreeEnv false) (streetBoxes [⟨6, 10, 7, 11⟩]) plainOpts).map
      fun out => out.map fun c => c.entries.map fun e => (e.entry.x, e.entry.y, e.entry.id)) = some
        [[(5, 9, 7), (1, 2, 3)], [(5, 9, 7), (1, 2, 4)], [(5, 9, 7)], [(40, 40, 8)], [(1, 2, 3)],
          [(1, 2, 4)]] := by decide +kernel
  obtain ⟨out, h1, k1⟩ := Option.map_eq_some_iff.1 h1
  have hl : out.length = 6 := by simpa using congrArg List.length k1
  have hs : Short out := short_of_few (by omega)
  exact ⟨out, h1, k1, hs, (C91_exact d1 d2 (Or.inr d3) d4 h1 hs).2⟩

/-- Wider boxes for `C91_wider`. -/
example : ∀ q ∈ streetBoxes [⟨100, 100, 101, 101⟩],
    Widens q.store ([⟨0, 0, 255, 255⟩] : List BBox) := by
  intro q hq
  simp only [streetBoxes, List.map_cons, List.map_nil, List.mem_cons, List.not_mem_nil, or_false] at hq
  unfold Widens
  rcases hq with rfl | rfl <;> decide +kernel

end Carmen
