import Verif.Spec.Point
import Verif.Props.Wider

/-!
# C101: a point takes nothing away and lowers no relevance
-/

namespace Carmen
open Format Spec Builder

theorem report_point {opts : MatchOpts} {radius : F64} {l : Bool} {e : GridEntry}
    (hb : IsResult opts radius (report opts radius l e)) :
    WithPoint (report (withoutPoint opts) radius l e) (report opts radius l e) := by
  have h0 : ¬ WithinRadius (withoutPoint opts) radius e := by simp [WithinRadius, withoutPoint]
  refine ⟨rfl, rfl, ?_, ?_⟩
  · simp only [report, h0, or_false]
    split_ifs with h1 h2 h2
    · exact le_rfl
    · exact absurd (Or.inl h1) h2
    · have := reduced_le _ hb.relev
      simp only [report] at this
      rwa [if_pos h2] at this
    · exact le_rfl
  · intro h
    simp only [report] at h
    simp [report, h]

theorem inBox_point {opts : MatchOpts} {e : GridEntry} : InBox (withoutPoint opts) e ↔ InBox opts e := by
  rw [inBox_iff, inBox_iff]
  rfl

/-- **C101**, for queries: with a point, the same entries come back, with no less relevance. -/
theorem C101_query {s : Store} (hd : LaidOut s.db) (M : KMerger) (H : Heap QueueElement.key)
    {chk : Bool} {mk : MatchKey} (hst : mk.phrase.start < 2 ^ 32) {opts : MatchOpts}
    (ho : OptsWf opts) (hbf : BoxFit chk opts) (hn : NumbersOk opts s.radius) {n : ℕ}
    (hlim : s.db.length ≤ n) {out : List MatchEntry}
    (hout : s.getMatching M H chk mk (withoutPoint opts) n = some out) :
    ∃ out', s.getMatching M H chk mk opts n = some out' ∧
      ∃ ps : List (MatchEntry × MatchEntry), (ps.map Prod.fst).Perm out ∧
        (ps.map Prod.snd).Perm out' ∧ ∀ p ∈ ps, WithPoint p.1 p.2 := by
  have ho0 : OptsWf (withoutPoint opts) := ⟨ho.1, by simp [withoutPoint]⟩
  have hbf0 : BoxFit chk (withoutPoint opts) := hbf
  have hn0 : NumbersOk (withoutPoint opts) s.radius := fun h => absurd rfl h
  obtain ⟨⟨st, en, m⟩, hp⟩ : ∃ plan, s.fetchPlan chk mk.phrase = some plan := by
    cases h : s.fetchPlan chk mk.phrase with
    | some p => exact ⟨p, rfl⟩
    | none =>
      unfold Store.getMatching Store.queryRows at hout
      rw [h] at hout
      simp at hout
  have hst' := fetchPlan_start hp hst
  obtain ⟨o1, a1, a2, -⟩ := getMatching_all (M := M) (H := H) (n := n) (opts := withoutPoint opts)
    (queryRows_eq hd rfl hp hst') _ (rowElement_rows hd ho0 hbf0 hn0 M mk)
    ((List.length_filter_le _ _).trans hlim)
  obtain ⟨o2, b1, b2, -⟩ := getMatching_all (M := M) (H := H) (n := n) (opts := opts)
    (queryRows_eq hd rfl hp hst') _ (rowElement_rows hd ho hbf hn M mk)
    ((List.length_filter_le _ _).trans hlim)
  rw [hout] at a1
  cases a1
  refine ⟨o2, b1, ?_⟩
  obtain ⟨ps, c1, c2, c3⟩ := pairs_flatMap (R := WithPoint) (s.db.filter (inRange m st en))
    (rowOut M s mk (withoutPoint opts)) (rowOut M s mk opts) (by
      intro r hr
      obtain ⟨rec, k, v, es, hk, hv, hsh, rfl, h1, h2, hes, -, -, hperm⟩ :=
        row_answers hd ho0 hbf0 hn0 M mk hr
      obtain ⟨_, k', v', es', hk', -, -, e, -, -, hes', -, -, hperm'⟩ :=
        row_answers hd ho hbf hn M mk hr
      have hkk : k = k' := (dbKey_inj hk hk' (congrArg Prod.fst e)).2
      subst hkk
      rw [hes] at hes'
      cases hes'
      refine ⟨(es.filter (fun e => decide (InBox opts e))).map fun e =>
        (report (withoutPoint opts) s.radius (langMatches mk.langSet k.langSet) e,
          report opts s.radius (langMatches mk.langSet k.langSet) e), ?_, ?_, ?_⟩
      · rw [List.map_map]; exact hperm.symm
      · rw [List.map_map]; exact hperm'.symm
      · intro p hp
        obtain ⟨e, he, rfl⟩ := List.mem_map.1 hp
        refine report_point ?_
        refine getMatching_mem b1 _ (b2.mem_iff.2 (List.mem_flatMap.2 ⟨_, hr, ?_⟩))
        exact hperm'.mem_iff.2 (List.mem_map.2 ⟨e, he, rfl⟩))
  exact ⟨ps, c1.trans a2.symm, c2.trans b2.symm, c3⟩

/-! ## Searches -/

theorem keyLookup_withoutPoint (opts : MatchOpts) (q : Subquery) (kg : KeyWithId) :
    keyLookup (withoutPoint opts) q kg = withoutPoint (opts.adjustToZoom q.store.zoom) := by
  have h : (withoutPoint opts).adjustToZoom q.store.zoom =
      withoutPoint (opts.adjustToZoom q.store.zoom) := by
    unfold MatchOpts.adjustToZoom withoutPoint
    split_ifs <;> rfl
  unfold keyLookup
  rw [h]
  split_ifs
  · rfl
  · rfl

theorem nearby_in {o : MatchOpts} {e : GridEntry} (h : InBox o.withNearbyOnly e) : InBox o e := by
  rw [inBox_iff] at h ⊢
  unfold MatchOpts.withNearbyOnly at h
  cases hp : o.proximity with
  | none => rw [hp] at h; exact h
  | some p =>
    rw [hp] at h
    intro b hb
    simp only [hb, Option.some.injEq, forall_eq', max_le_iff, le_min_iff] at h
    tauto

theorem Spec.WithPoint.place {r r' : MatchEntry} (h : WithPoint r r') : AtSamePlace r r' := by
  rw [AtSamePlace, h.entry]
  exact ⟨rfl, rfl, rfl⟩

section
variable {env : Env} {opts : MatchOpts} {qs : List Subquery}

/-- The two answers to a lookup. -/
theorem point_answers (hchk : env.chk = false) (how : OptsWf opts) (hz : opts.zoom ≤ 16)
    (hs : SmallLookups env (withoutPoint opts) qs) {q : Subquery} (hq : q ∈ qs) {kg : KeyWithId}
    (hk : kg ∈ q.matchKeys) :
    ∃ gs gs' o o' radius, answersTo env (withoutPoint opts) q kg 100000 = some gs ∧
      answersTo env opts q kg 100000 = some gs' ∧ gs.length ≤ 100000 ∧ gs'.length ≤ 100000 ∧
      gs.Pairwise (NotWorse o radius) ∧ gs'.Pairwise (NotWorse o' radius) ∧
      (∀ g ∈ gs, InBox o' g.entry → ∃ g' ∈ gs', AtSamePlace g g' ∧ g.entry.relev ≤ g'.entry.relev) ∧
      (∀ g' ∈ gs', ∃ g ∈ gs, AtSamePlace g g' ∧ InBox o' g.entry) ∧
      (kg.nearbyOnly = false → ∀ g ∈ gs, InBox o' g.entry) := by
  obtain ⟨hfit, hrows⟩ := hs.index _ hq
  have hst := hs.key _ hq _ hk
  have how0 : OptsWf (withoutPoint opts) := ⟨how.1, by simp [withoutPoint]⟩
  obtain ⟨l1, w1, z1⟩ := lookupOpts_release hchk how0 (opts := withoutPoint opts) hz hfit.zoom kg
  obtain ⟨l2, w2, z2⟩ := lookupOpts_release hchk how hz hfit.zoom kg
  have hin : ∀ e, InBox (keyLookup opts q kg) e → InBox (keyLookup (withoutPoint opts) q kg) e := by
    intro e he
    rw [keyLookup_withoutPoint, inBox_point]
    unfold keyLookup at he
    split_ifs at he
    · exact nearby_in he
    · exact he
  have hin' : kg.nearbyOnly = false →
      ∀ e, InBox (keyLookup (withoutPoint opts) q kg) e → InBox (keyLookup opts q kg) e := by
    intro hf e he
    rw [keyLookup_withoutPoint, inBox_point] at he
    unfold keyLookup
    rw [if_neg (by simp [hf])]
    exact he
  have hsame : SameButBox (withoutPoint (keyLookup opts q kg)) (keyLookup (withoutPoint opts) q kg) := by
    rw [keyLookup_withoutPoint]
    refine ⟨rfl, ?_⟩
    unfold keyLookup withoutPoint
    split_ifs
    · exact (nearby_point _).1
    · rfl
  generalize keyLookup (withoutPoint opts) q kg = o at l1 w1 z1 hin hin' hsame
  generalize keyLookup opts q kg = o' at l2 w2 z2 hin hin' hsame
  have hbf : ∀ o, BoxFit env.chk o := by rw [hchk]; exact boxFit_false
  have hn : NumbersOk o q.store.radius := fun _ => ⟨z1, hfit.radius⟩
  have hn' : NumbersOk o' q.store.radius := fun _ => ⟨z2, hfit.radius⟩
  have w0 : OptsWf (withoutPoint o') := ⟨w2.1, by simp [withoutPoint]⟩
  have hn0 : NumbersOk (withoutPoint o') q.store.radius := fun h => absurd rfl h
  obtain ⟨g0, e0, -⟩ := query_fit hfit (k := kg) ⟨hst, by rw [hchk]; nofun,
    by rw [hchk]; nofun⟩ w0 (hbf _) (show (withoutPoint o').zoom ≤ 16 from z2) (n := 100000)
    (by norm_num)
  obtain ⟨gs, g1, hperm⟩ := C100_query hfit.built env.merger env.rows hst hsame
    (fun e h => hin e (inBox_point.1 h)) w0 w1 (hbf _) (hbf o) hn0 hrows e0
  obtain ⟨gs', g2, ps, p1, p2, p3⟩ := C101_query hfit.built env.merger env.rows hst w2 (hbf o') hn'
    hrows e0
  have ha : answersTo env (withoutPoint opts) q kg 100000 = some gs := answersTo_some.2 ⟨o, l1, g1⟩
  have hlen := hs.answers _ hq _ hk gs ha
  have hmem : ∀ g, g ∈ g0 ↔ g ∈ gs ∧ InBox o' g.entry := by
    intro g
    rw [hperm.mem_iff, List.mem_filter, decide_eq_true_eq, inBox_point]
  refine ⟨gs, gs', o, o', q.store.radius, ha, answersTo_some.2 ⟨o', l2, g2⟩, hlen, ?_, ?_, ?_, ?_,
    ?_, ?_⟩
  · have h1 : gs'.length = g0.length := by
      rw [← p2.length_eq, ← p1.length_eq, List.length_map, List.length_map]
    rw [h1, hperm.length_eq]
    exact (List.length_filter_le _ _).trans hlen
  · exact C22_relevance_partial _ hfit.built q.store rfl _ _ _ kg.key hst o w1 hn _
      (by norm_num) gs g1
  · exact C22_relevance_partial _ hfit.built q.store rfl _ _ _ kg.key hst o' w2 hn' _
      (by norm_num) gs' g2
  · intro g hg hb
    obtain ⟨p, hp, rfl⟩ := List.mem_map.1 (p1.mem_iff.2 ((hmem g).2 ⟨hg, hb⟩))
    exact ⟨p.2, p2.mem_iff.1 (List.mem_map_of_mem hp), (p3 p hp).place, (p3 p hp).relev⟩
  · intro g hg
    obtain ⟨p, hp, rfl⟩ := List.mem_map.1 (p2.mem_iff.2 hg)
    obtain ⟨h1, h2⟩ := (hmem p.1).1 (p1.mem_iff.1 (List.mem_map_of_mem hp))
    exact ⟨p.1, h1, (p3 p hp).place, h2⟩
  · intro hf g hg
    refine hin' hf _ ?_
    obtain ⟨gs2, g3, hp⟩ := C100_query hfit.built env.merger env.rows hst (opts := o) (opts' := o)
      ⟨rfl, rfl⟩ (fun _ h => h) w1 w1 (hbf o) (hbf o) hn hrows g1
    exact of_decide_eq_true (List.mem_filter.1 (hp.mem_iff.1 hg)).2

theorem point_improve (hchk : env.chk = false) (how : OptsWf opts) (hz : opts.zoom ≤ 16)
    (hs : SmallLookups env (withoutPoint opts) qs) (hnear : NoneNearbyOnly qs) :
    Improves (· ≤ ·) env (withoutPoint opts) opts id (fun _ kg => kg) qs := by
  rintro ⟨q, kg, g⟩ hq hf
  obtain ⟨hk, before, after, h1, h2, h3⟩ := firstAnswer_iff.1 hf
  obtain ⟨gs, gs', o, o', radius, a1, a2, -, a4, -, a6, a7, -, a9⟩ := point_answers hchk how hz hs hq hk
  rw [a1] at h1
  cases h1
  obtain ⟨g', m1, m2, m3⟩ := a7 g (by simp) (a9 (hnear q hq kg hk) g (by simp))
  obtain ⟨before', g'', after', rfl, n1, n2⟩ := exists_first m1
  refine ⟨g'', ?_, ⟨n1.1.trans m2.1, n1.2.1.trans m2.2.1, n1.2.2.trans m2.2.2⟩,
    le_trans m3 (first_is_best a6 n2 m1 n1)⟩
  rw [firstAnswer_iff]
  refine ⟨hk, before', after', a2, ?_, n2⟩
  rw [List.length_append, List.length_cons] at a4
  change before'.length < 100000
  omega

theorem point_back (hchk : env.chk = false) (how : OptsWf opts) (hz : opts.zoom ≤ 16)
    (hs : SmallLookups env (withoutPoint opts) qs) :
    Improves (· ≥ ·) env opts (withoutPoint opts) id (fun _ kg => kg) qs := by
  rintro ⟨q, kg, g'⟩ hq hf
  obtain ⟨hk, before', after', h1, h2, h3⟩ := firstAnswer_iff.1 hf
  obtain ⟨gs, gs', o, o', radius, a1, a2, a3, -, -, a6, a7, a8, -⟩ :=
    point_answers hchk how hz hs hq hk
  rw [a2] at h1
  cases h1
  obtain ⟨g, m1, m2, m3⟩ := a8 g' (by simp)
  obtain ⟨before, g0, after, rfl, n1, n2⟩ := exists_first m1
  have hb : InBox o' g0.entry := by
    rw [inBox_iff] at m3 ⊢
    rw [n1.1, n1.2.1]
    exact m3
  obtain ⟨g1, k1, k2, k3⟩ := a7 g0 (by simp) hb
  have hp : AtSamePlace g' g0 := ⟨n1.1.trans m2.1.symm, n1.2.1.trans m2.2.1.symm,
    n1.2.2.trans m2.2.2.symm⟩
  refine ⟨g0, ?_, hp, le_trans k3 (first_is_best a6 h3 k1 ⟨hp.1.symm.trans k2.1.symm,
    hp.2.1.symm.trans k2.2.1.symm, hp.2.2.symm.trans k2.2.2.symm⟩)⟩
  rw [firstAnswer_iff]
  refine ⟨hk, before, after, a1, ?_, n2⟩
  rw [List.length_append, List.length_cons] at a3
  change before.length < 100000
  omega

end

/-- **C101**, for `stack_and_coalesce`: whatever a search without a point returned, the search with one
returns too, with no less relevance, if no match key is for nearby features only. -/
theorem C101_search {env : TreeEnv} (hchk : env.chk = false) {qs : List Subquery} {opts : MatchOpts}
    (how : OptsWf opts) (hz16 : opts.zoom ≤ 16)
    (hs : SmallLookups env.toEnv (withoutPoint opts) qs) (hnear : NoneNearbyOnly qs)
    (hd : Delivered qs) (hfew : FewGroupStacks 2000 qs)
    (hz : ZoomsAscend qs) (hroom : RoomForGroups qs) (hw : WeightsPositive qs)
    {out out' : List Context} (hout : stackAndCoalesce env qs (withoutPoint opts) = some out)
    (hout' : stackAndCoalesce env qs opts = some out') (hlen : Short out') :
    ∀ c ∈ out, LoneResult env.toEnv (withoutPoint opts) qs c ∨ ∃ c' ∈ out', ContextNotWorse c c' := by
  intro c hc
  rcases C91_sound hd hfew (Or.inr hz) hout c hc with ⟨hs', h1, h2, h3⟩ | h
  · right
    obtain ⟨c', r1, r2⟩ := better_returned (same_shapes qs) (Or.inl rfl) hw hw
      (fun _ _ => le_refl _) (point_improve hchk how hz16 hs hnear) (fun _ _ _ _ _ h => h) h1 h2 h3
    exact ⟨c', C91_complete hd hfew (Or.inr hz) hroom hout' hlen c' r1, r2.up⟩
  · exact Or.inl h

/-- **C101**, the other way: a point brings no context of other tiles, features or phrase matches. -/
theorem C101_nothing_new {env : TreeEnv} (hchk : env.chk = false) {qs : List Subquery}
    {opts : MatchOpts} (how : OptsWf opts) (hz16 : opts.zoom ≤ 16)
    (hs : SmallLookups env.toEnv (withoutPoint opts) qs)
    (hd : Delivered qs) (hfew : FewGroupStacks 2000 qs)
    (hz : ZoomsAscend qs) (hroom : RoomForGroups qs) (hw : WeightsPositive qs)
    {out out' : List Context} (hout : stackAndCoalesce env qs (withoutPoint opts) = some out)
    (hout' : stackAndCoalesce env qs opts = some out') (hlen : Short out) :
    ∀ c' ∈ out', LoneResult env.toEnv opts qs c' ∨ ∃ c ∈ out, ContextNotWorse c c' := by
  intro c hc
  rcases C91_sound hd hfew (Or.inr hz) hout' c hc with ⟨hs', h1, h2, h3⟩ | h
  · right
    obtain ⟨c', r1, r2⟩ := better_returned (same_shapes qs) (Or.inr (Or.inl rfl)) hw hw
      (fun _ _ => le_refl _) (point_back hchk how hz16 hs) (fun _ _ _ _ _ h => h) h1 h2 h3
    exact ⟨c', C91_complete hd hfew (Or.inr hz) hroom hout hlen c' r1, r2.down⟩
  · exact Or.inl h

/-! ## Cases -/

theorem wholeBox_noPoint_small : SmallLookups (listTreeEnv false).toEnv (withoutPoint wholeBox)
    [regionTreeMatch, streetTreeMatch] := by
  refine ⟨wholeBox_small.index, wholeBox_small.key, ?_⟩
  have h : ∀ q ∈ [regionTreeMatch, streetTreeMatch],
      ∀ kg ∈ q.matchKeys, (answersTo (listTreeEnv false).toEnv (withoutPoint wholeBox) q kg
        100000).all (fun gs => decide (gs.length ≤ 100000)) = true := by decide +kernel
  intro q hq kg hk gs hgs
  have := h q hq kg hk
  rw [hgs] at this
  exact of_decide_eq_true this

/-- Streets in their regions, without and with a point. -/
example : ∃ out out', stackAndCoalesce (listTreeEnv false) [regionTreeMatch, streetTreeMatch]
      (withoutPoint wholeBox) = some out ∧
    stackAndCoalesce (listTreeEnv false) [regionTreeMatch, streetTreeMatch] wholeBox = some out' ∧
    (∃ c ∈ out, c.entries.length = 2) ∧
    (∀ c ∈ out, LoneResult (listTreeEnv false).toEnv (withoutPoint wholeBox)
      [regionTreeMatch, streetTreeMatch] c ∨ ∃ c' ∈ out', ContextNotWorse c c') ∧
    ∀ c' ∈ out', LoneResult (listTreeEnv false).toEnv wholeBox [regionTreeMatch, streetTreeMatch] c' ∨
      ∃ c ∈ out, ContextNotWorse c c' := by
  have h1 : (stackAndCoalesce (listTreeEnv false) [regionTreeMatch, streetTreeMatch]
      (withoutPoint wholeBox)).map
        (fun out => decide (out.length < 40 ∧ ∃ c ∈ out, c.entries.length = 2)) = some true := by
    decide +kernel
  have h2 : (stackAndCoalesce (listTreeEnv false) [regionTreeMatch, streetTreeMatch]
      wholeBox).map (fun out => decide (out.length < 40)) = some true := by
    decide +kernel
  obtain ⟨out, h1, h3⟩ := Option.map_eq_some_iff.1 h1
  obtain ⟨out', h2, h4⟩ := Option.map_eq_some_iff.1 h2
  obtain ⟨h3, h5⟩ := of_decide_eq_true h3
  have h4 := of_decide_eq_true h4
  have hd : Delivered [regionTreeMatch, streetTreeMatch] :=
    ⟨by decide +kernel, by decide +kernel, by decide +kernel⟩
  have hroom : RoomForGroups [regionTreeMatch, streetTreeMatch] :=
    room_of_small (by decide +kernel) (by decide +kernel) (by
      intro q hq kg hk
      simp only [List.mem_cons, List.not_mem_nil, or_false] at hq
      rcases hq with rfl | rfl <;> exact ⟨_, by rw [List.mem_singleton.1 hk]⟩)
  have hz : ZoomsAscend [regionTreeMatch, streetTreeMatch] := by
    unfold ZoomsAscend
    decide +kernel
  have hw : WeightsPositive [regionTreeMatch, streetTreeMatch] := by
    unfold WeightsPositive
    decide +kernel
  have hnear : NoneNearbyOnly [regionTreeMatch, streetTreeMatch] := by
    unfold NoneNearbyOnly
    decide +kernel
  exact ⟨out, out', h1, h2, h5,
    C101_search rfl wholeBox_sound.wf wholeBox_sound.zoom wholeBox_noPoint_small hnear hd
      (few_of_small (by decide +kernel)) hz hroom hw h1 h2 (short_of_few h4),
    C101_nothing_new rfl wholeBox_sound.wf wholeBox_sound.zoom wholeBox_noPoint_small hd
      (few_of_small (by decide +kernel)) hz hroom hw h1 h2 (short_of_few h3)⟩

/-- A feature with a high score far away and 40 features nearby with a low one. -/
def awayStore : Store :=
  Store.openWith ((finish .id (Builder.new.append ⟨1, 1⟩ (⟨1, 2, 60, 60, 1000, 0⟩ ::
    (List.range 40).map fun i => ⟨1, 1, 1, 1, i + 1, 0⟩))).getD []) 6 0 (lit 100) [⟨0, 0, 63, 63⟩] 0

/-- A phrase match in this store. -/
def awayMatch : Subquery := ⟨awayStore, 0, [], 1, 1, [⟨⟨.exact 1, 1⟩, false, 0, 5⟩]⟩

/-- C101 cannot say it of contexts of one phrase match nothing can be put below: with a point there may
be 40 others that rank higher. -/
theorem C101_lone_overtaken : ∃ out out',
    stackAndCoalesce (listTreeEnv false) [awayMatch] ⟨none, none, 6⟩ = some out ∧
    stackAndCoalesce (listTreeEnv false) [awayMatch] ⟨none, some (1, 1), 6⟩ = some out' ∧
    (∃ c ∈ out.head?, c.first.entry.id = 1000) ∧ ∀ c ∈ out', c.first.entry.id ≠ 1000 := by
  have h1 : (stackAndCoalesce (listTreeEnv false) [awayMatch]
      ⟨none, none, 6⟩).map (fun out =>
        decide (∃ c ∈ out.head?, c.first.entry.id = 1000)) = some true := by
    decide +kernel
  have h2 : (stackAndCoalesce (listTreeEnv false) [awayMatch]
      ⟨none, some (1, 1), 6⟩).map (fun out =>
        decide (∀ c ∈ out, c.first.entry.id ≠ 1000)) = some true := by
    decide +kernel
  obtain ⟨out, h1, h3⟩ := Option.map_eq_some_iff.1 h1
  obtain ⟨out', h2, h4⟩ := Option.map_eq_some_iff.1 h2
  exact ⟨out, out', h1, h2, of_decide_eq_true h3, of_decide_eq_true h4⟩

end Carmen
