import Verif.Lemmas.BetterHits
import Verif.Props.Languages
import Verif.Props.Found
import Verif.Props.SameBox

/-!
# C92: searches for more languages
-/

namespace Carmen
open Format Spec Builder

theorem withLangs_twice (l l' : ℕ → ℕ) (q : Subquery) :
    withLangs l' (withLangs l q) = withLangs l' q := by
  unfold withLangs
  rw [List.map_map]
  rfl

theorem withLangs_shapes (l l' : ℕ → ℕ) (qs : List Subquery) :
    Shapes (withLangs l') (fun _ => keyInLangs l') (qs.map (withLangs l)) (qs.map (withLangs l')) where
  mask _ := rfl
  idx _ := rfl
  groups _ _ _ _ h _ _ := h
  nonOverlapping _ := rfl
  matchKeys _ := rfl
  id _ _ := rfl
  typeId _ _ := rfl
  zoom _ _ := rfl
  mem q hq := by
    obtain ⟨a, ha, rfl⟩ := List.mem_map.1 hq
    exact List.mem_map.2 ⟨a, ha, (withLangs_twice l l' a).symm⟩
  onto q hq := by
    obtain ⟨a, ha, rfl⟩ := List.mem_map.1 hq
    exact ⟨_, List.mem_map_of_mem ha, withLangs_twice l l' a⟩

theorem withLangs_delivered (l : ℕ → ℕ) {qs : List Subquery} (h : Delivered qs) :
    Delivered (qs.map (withLangs l)) := by
  refine ⟨?_, ?_, ?_⟩
  · intro q hq
    obtain ⟨a, ha, rfl⟩ := List.mem_map.1 hq
    change (a.matchKeys.map _).length = 1
    rw [List.length_map]
    exact h.one a ha
  · rw [List.flatMap_map]
    have : (fun q : Subquery => (withLangs l q).matchKeys.map KeyWithId.id) =
        fun q => q.matchKeys.map KeyWithId.id := by
      funext q
      change (q.matchKeys.map _).map _ = _
      rw [List.map_map]
      rfl
    rw [this]
    exact h.ids
  · intro a ha b hb hab
    obtain ⟨a, ha', rfl⟩ := List.mem_map.1 ha
    obtain ⟨b, hb', rfl⟩ := List.mem_map.1 hb
    exact h.index a ha' b hb' hab

theorem withLangs_zooms (l : ℕ → ℕ) {qs : List Subquery} (h : ZoomsAscend qs) :
    ZoomsAscend (qs.map (withLangs l)) := by
  intro a ha b hb
  obtain ⟨a, ha', rfl⟩ := List.mem_map.1 ha
  obtain ⟨b, hb', rfl⟩ := List.mem_map.1 hb
  exact h a ha' b hb'

theorem withLangs_same (l : ℕ → ℕ) {qs : List Subquery} :
    Shapes (withLangs l) (fun _ => keyInLangs l) qs (qs.map (withLangs l)) where
  mask _ := rfl
  idx _ := rfl
  groups _ _ _ _ h _ _ := h
  nonOverlapping _ := rfl
  matchKeys _ := rfl
  id _ _ := rfl
  typeId _ _ := rfl
  zoom _ _ := rfl
  mem _ hq := List.mem_map_of_mem hq
  onto q hq := by
    obtain ⟨a, ha, rfl⟩ := List.mem_map.1 hq
    exact ⟨a, ha, rfl⟩

theorem withLangs_weights (l : ℕ → ℕ) {qs : List Subquery} (h : WeightsPositive qs) :
    WeightsPositive (qs.map (withLangs l)) := by
  intro q hq
  obtain ⟨a, ha, rfl⟩ := List.mem_map.1 hq
  exact h a ha

theorem Spec.SameOrBetter.place {g g' : MatchEntry} (h : SameOrBetter g g') :
    AtSamePlace g g' ∧ g.entry.relev ≤ g'.entry.relev := by
  rcases h with rfl | ⟨-, h1, h2⟩
  · exact ⟨⟨rfl, rfl, rfl⟩, le_rfl⟩
  · refine ⟨?_, h1⟩
    rw [h2]
    exact ⟨rfl, rfl, rfl⟩

section
variable {env : Env} {opts : MatchOpts} {qs : List Subquery} {l l' : ℕ → ℕ}

/-- The two answers to a lookup. -/
theorem langs_answers (hchk : env.chk = false) (how : OptsWf opts) (hz : opts.zoom ≤ 16)
    (hs : SmallLookups env opts (qs.map (withLangs l))) (hl : ∀ i, LangsWithin (l i) (l' i))
    {q : Subquery} (hq : q ∈ qs) {kg : KeyWithId} (hk : kg ∈ q.matchKeys) :
    ∃ gs gs' o radius, answersTo env opts (withLangs l q) (keyInLangs l kg) 100000 = some gs ∧
      answersTo env opts (withLangs l' q) (keyInLangs l' kg) 100000 = some gs' ∧
      gs.length ≤ 100000 ∧ gs'.length ≤ 100000 ∧ gs.Pairwise (NotWorse o radius) ∧
      gs'.Pairwise (NotWorse o radius) ∧
      (∀ g ∈ gs, ∃ g' ∈ gs', AtSamePlace g g' ∧ g.entry.relev ≤ g'.entry.relev) ∧
      ∀ g' ∈ gs', ∃ g ∈ gs, AtSamePlace g g' := by
  have hqm := List.mem_map_of_mem (f := withLangs l) hq
  obtain ⟨hfit, hrows⟩ := hs.index _ hqm
  have hkm : keyInLangs l kg ∈ (withLangs l q).matchKeys := List.mem_map_of_mem hk
  have hst := hs.key _ hqm _ hkm
  obtain ⟨l1, w1, z1⟩ := lookupOpts_release hchk how hz hfit.zoom (keyInLangs l kg)
  have l2 : lookupOpts env opts (withLangs l' q) (keyInLangs l' kg) =
      some (keyLookup opts (withLangs l q) (keyInLangs l kg)) := l1
  generalize keyLookup opts (withLangs l q) (keyInLangs l kg) = o at l1 l2 w1 z1
  have hbf : BoxFit env.chk o := by rw [hchk]; exact boxFit_false o
  have hn : NumbersOk o q.store.radius := fun _ => ⟨z1, hfit.radius⟩
  obtain ⟨gs, g1, -⟩ := query_fit hfit (k := keyInLangs l kg) ⟨hst, by rw [hchk]; nofun,
    by rw [hchk]; nofun⟩ w1 hbf z1 (n := 100000) (by norm_num)
  obtain ⟨gs', g2, ps, p1, p2, p3⟩ := C92_query hfit.built (s := q.store) rfl env.merger env.rows
    (phrase := kg.key.phrase) hst (hl kg.id) w1 hbf hn hrows g1
  have ha : answersTo env opts (withLangs l q) (keyInLangs l kg) 100000 = some gs :=
    answersTo_some.2 ⟨o, l1, g1⟩
  have hlen := hs.answers _ hqm _ hkm gs ha
  refine ⟨gs, gs', o, q.store.radius, ha, answersTo_some.2 ⟨o, l2, g2⟩, hlen, ?_, ?_, ?_, ?_, ?_⟩
  · rw [← p2.length_eq, List.length_map]
    rw [← p1.length_eq, List.length_map] at hlen
    exact hlen
  · exact C22_relevance_partial _ hfit.built q.store rfl _ _ _ (keyInLangs l kg).key hst o w1 hn _
      (by norm_num) gs g1
  · exact C22_relevance_partial _ hfit.built q.store rfl _ _ _ ⟨kg.key.phrase, l' kg.id⟩ hst o w1 hn
      _ (by norm_num) gs' g2
  · intro g hg
    obtain ⟨p, hp, rfl⟩ := List.mem_map.1 (p1.mem_iff.2 hg)
    exact ⟨p.2, p2.mem_iff.1 (List.mem_map_of_mem hp), (p3 p hp).place⟩
  · intro g hg
    obtain ⟨p, hp, rfl⟩ := List.mem_map.1 (p2.mem_iff.2 hg)
    exact ⟨p.1, p1.mem_iff.1 (List.mem_map_of_mem hp), (p3 p hp).place.1⟩

theorem langs_improve (hchk : env.chk = false) (how : OptsWf opts) (hz : opts.zoom ≤ 16)
    (hs : SmallLookups env opts (qs.map (withLangs l))) (hl : ∀ i, LangsWithin (l i) (l' i)) :
    Improves (· ≤ ·) env opts opts (withLangs l') (fun _ => keyInLangs l')
      (qs.map (withLangs l)) := by
  rintro ⟨q, kg, g⟩ hq hf
  obtain ⟨q, hq', rfl⟩ := List.mem_map.1 hq
  obtain ⟨hk, before, after, h1, h2, h3⟩ := firstAnswer_iff.1 hf
  obtain ⟨kg, hk', rfl⟩ := List.mem_map.1 hk
  obtain ⟨gs, gs', o, radius, a1, a2, -, a4, -, a6, a7, -⟩ := langs_answers hchk how hz hs hl hq' hk'
  rw [a1] at h1
  cases h1
  obtain ⟨g', m1, m2, m3⟩ := a7 g (by simp)
  obtain ⟨before', g'', after', rfl, n1, n2⟩ := exists_first m1
  refine ⟨g'', ?_, ⟨n1.1.trans m2.1, n1.2.1.trans m2.2.1, n1.2.2.trans m2.2.2⟩,
    le_trans m3 (first_is_best a6 n2 m1 n1)⟩
  rw [firstAnswer_iff]
  unfold moveTo
  simp only
  rw [withLangs_twice]
  refine ⟨List.mem_map.2 ⟨kg, hk', rfl⟩, before', after', a2, ?_, n2⟩
  rw [List.length_append, List.length_cons] at a4
  omega

theorem langs_back (hchk : env.chk = false) (how : OptsWf opts) (hz : opts.zoom ≤ 16)
    (hs : SmallLookups env opts (qs.map (withLangs l))) (hl : ∀ i, LangsWithin (l i) (l' i)) :
    Improves (· ≥ ·) env opts opts (withLangs l) (fun _ => keyInLangs l)
      (qs.map (withLangs l')) := by
  rintro ⟨q, kg, g'⟩ hq hf
  obtain ⟨q, hq', rfl⟩ := List.mem_map.1 hq
  obtain ⟨hk, before', after', h1, h2, h3⟩ := firstAnswer_iff.1 hf
  obtain ⟨kg, hk', rfl⟩ := List.mem_map.1 hk
  obtain ⟨gs, gs', o, radius, a1, a2, a3, -, -, a6, a7, a8⟩ := langs_answers hchk how hz hs hl hq' hk'
  rw [a2] at h1
  cases h1
  obtain ⟨g, m1, m2⟩ := a8 g' (by simp)
  obtain ⟨before, g0, after, rfl, n1, n2⟩ := exists_first m1
  obtain ⟨g1, k1, k2, k3⟩ := a7 g0 (by simp)
  have hp : AtSamePlace g' g0 := ⟨n1.1.trans m2.1.symm, n1.2.1.trans m2.2.1.symm,
    n1.2.2.trans m2.2.2.symm⟩
  refine ⟨g0, ?_, hp, le_trans k3 (first_is_best a6 h3 k1 ⟨hp.1.symm.trans k2.1.symm,
    hp.2.1.symm.trans k2.2.1.symm, hp.2.2.symm.trans k2.2.2.symm⟩)⟩
  rw [firstAnswer_iff]
  unfold moveTo
  simp only
  rw [withLangs_twice]
  refine ⟨List.mem_map.2 ⟨kg, hk', rfl⟩, before, after, a1, ?_, n2⟩
  rw [List.length_append, List.length_cons] at a3
  omega

end

/-- **C92**, `stack_and_coalesce`: when more languages are asked for, every context comes back with
the same tiles, features and phrase matches, and at least its relevance. Left out are contexts of one
phrase match nothing can be put below: they compete for 40 places, where others may overtake them. -/
theorem C92_search {env : TreeEnv} (hchk : env.chk = false) {qs : List Subquery} {opts : MatchOpts}
    (how : OptsWf opts) (hz16 : opts.zoom ≤ 16) {l l' : ℕ → ℕ} (hl : ∀ i, LangsWithin (l i) (l' i))
    (hs : SmallLookups env.toEnv opts (qs.map (withLangs l)))
    (hd : Delivered qs) (hfew : FewGroupStacks 2000 qs) (hz : ZoomsAscend qs)
    (hroom : RoomForGroups qs) (hw : WeightsPositive qs) {out out' : List Context}
    (hout : stackAndCoalesce env (qs.map (withLangs l)) opts = some out)
    (hout' : stackAndCoalesce env (qs.map (withLangs l')) opts = some out') (hlen : Short out') :
    ∀ c ∈ out, LoneResult env.toEnv opts (qs.map (withLangs l)) c ∨
      ∃ c' ∈ out', ContextNotWorse c c' := by
  intro c hc
  rcases C91_sound (withLangs_delivered l hd) ((withLangs_same l).few hfew)
    (Or.inr (withLangs_zooms l hz)) hout c hc with ⟨hs', h1, h2, h3⟩ | h
  · right
    obtain ⟨c', r1, r2⟩ := better_returned (withLangs_shapes l l' qs) (Or.inl rfl)
      (withLangs_weights l hw) (withLangs_weights l' hw) (fun _ _ => le_refl _) (langs_improve hchk how hz16 hs hl) (fun _ _ _ _ _ h => h) h1 h2 h3
    exact ⟨c', C91_complete (withLangs_delivered l' hd) ((withLangs_same l').few hfew)
      (Or.inr (withLangs_zooms l' hz)) ((withLangs_same l').room
        ⟨fun _ _ => rfl, fun _ _ => rfl, fun _ _ _ _ h => h⟩ hroom) hout' hlen c' r1, r2.up⟩
  · exact Or.inl h

/-- **C92**, `stack_and_coalesce`: asking for more languages brings no context of other tiles,
features or phrase matches. -/
theorem C92_nothing_new {env : TreeEnv} (hchk : env.chk = false) {qs : List Subquery}
    {opts : MatchOpts} (how : OptsWf opts) (hz16 : opts.zoom ≤ 16) {l l' : ℕ → ℕ}
    (hl : ∀ i, LangsWithin (l i) (l' i))
    (hs : SmallLookups env.toEnv opts (qs.map (withLangs l)))
    (hd : Delivered qs) (hfew : FewGroupStacks 2000 qs) (hz : ZoomsAscend qs)
    (hroom : RoomForGroups qs) (hw : WeightsPositive qs) {out out' : List Context}
    (hout : stackAndCoalesce env (qs.map (withLangs l)) opts = some out)
    (hout' : stackAndCoalesce env (qs.map (withLangs l')) opts = some out') (hlen : Short out) :
    ∀ c' ∈ out', LoneResult env.toEnv opts (qs.map (withLangs l')) c' ∨
      ∃ c ∈ out, ContextNotWorse c c' := by
  intro c' hc
  rcases C91_sound (withLangs_delivered l' hd) ((withLangs_same l').few hfew)
    (Or.inr (withLangs_zooms l' hz)) hout' c' hc with ⟨hs', h1, h2, h3⟩ | h
  · right
    obtain ⟨c, r1, r2⟩ := better_returned (withLangs_shapes l' l qs) (Or.inr (Or.inl rfl))
      (withLangs_weights l' hw) (withLangs_weights l hw) (fun _ _ => le_refl _) (langs_back hchk how hz16 hs hl) (fun _ _ _ _ _ h => h) h1 h2 h3
    exact ⟨c, C91_complete (withLangs_delivered l hd) ((withLangs_same l).few hfew)
      (Or.inr (withLangs_zooms l hz)) ((withLangs_same l).room
        ⟨fun _ _ => rfl, fun _ _ => rfl, fun _ _ _ _ h => h⟩ hroom) hout hlen c r1, r2.down⟩
  · exact Or.inl h

/-! ## Examples -/

/-- Asking the region index for language 2, and for the languages 0 and 2: the results are the same,
and no longer in another language. -/
example : ∃ out out', regionStore.getMatching listMerger (listHeap _) false ⟨.exact 1, 4⟩ plainOpts 9 =
      some out ∧ regionStore.getMatching listMerger (listHeap _) false ⟨.exact 1, 5⟩ plainOpts 9 =
      some out' ∧ out.length = 2 ∧ out.map (·.matchesLanguage) ≠ out'.map (·.matchesLanguage) ∧
    List.Forall₂ (fun r r' => r.entry.relev ≤ r'.entry.relev) out out' := by
  have h1 : (regionStore.getMatching listMerger (listHeap _) false ⟨.exact 1, 4⟩ plainOpts 9).map
      (List.map (·.matchesLanguage)) = some [false, false] := by decide +kernel
  have h2 : (regionStore.getMatching listMerger (listHeap _) false ⟨.exact 1, 5⟩ plainOpts 9).map
      (List.map (·.matchesLanguage)) = some [true, true] := by decide +kernel
  obtain ⟨out, h1, h3⟩ := Option.map_eq_some_iff.1 h1
  obtain ⟨out', h2, h4⟩ := Option.map_eq_some_iff.1 h2
  obtain ⟨out'', h5, h6⟩ := C92_places regionStore_laid rfl listMerger (listHeap _) (chk := false)
    (phrase := .exact 1) (by decide) (l := 4) (l' := 5) (by intro i hi; revert i; decide)
    (opts := plainOpts) ⟨by decide, by decide⟩ (boxFit_false _) rfl (n := 9) (by norm_num)
    (by decide +kernel) h1
  rw [h2] at h5
  cases h5
  refine ⟨out, out', h1, h2, ?_, by rw [h3, h4]; decide, h6⟩
  rw [← List.length_map (f := fun r : MatchEntry => r.matchesLanguage), h3]
  rfl

theorem langs_small : SmallLookups (listTreeEnv false).toEnv plainOpts
    ([regionTreeMatch, streetTreeMatch].map (withLangs fun _ => 4)) := by
  refine ⟨?_, by decide +kernel, ?_⟩
  · intro q hq
    simp only [List.map_cons, List.map_nil, List.mem_cons, List.not_mem_nil, or_false] at hq
    rcases hq with rfl | rfl
    · exact ⟨⟨regionStore_laid, by decide +kernel, by decide⟩, by decide +kernel⟩
    · exact ⟨⟨streetStore_laid, by decide +kernel, by decide⟩, by decide +kernel⟩
  · have h : ∀ q ∈ [regionTreeMatch, streetTreeMatch].map (withLangs fun _ => 4),
        ∀ kg ∈ q.matchKeys, (answersTo (listTreeEnv false).toEnv plainOpts q kg 100000).all
          (fun gs => decide (gs.length ≤ 100000)) = true := by decide +kernel
    intro q hq kg hk gs hgs
    have := h q hq kg hk
    rw [hgs] at this
    exact of_decide_eq_true this

/-- The street in the region, asked for in language 2 and then in the languages 0 and 2. -/
example : ∃ out out', stackAndCoalesce (listTreeEnv false)
      ([regionTreeMatch, streetTreeMatch].map (withLangs fun _ => 4)) plainOpts = some out ∧
    stackAndCoalesce (listTreeEnv false)
      ([regionTreeMatch, streetTreeMatch].map (withLangs fun _ => 5)) plainOpts = some out' ∧
    (∃ c ∈ out, c.entries.length = 2 ∧ c.relev < lit 0.97) ∧ (∃ c' ∈ out', lit 0.98 < c'.relev) ∧
    (∀ c ∈ out, LoneResult (listTreeEnv false).toEnv plainOpts
        ([regionTreeMatch, streetTreeMatch].map (withLangs fun _ => 4)) c ∨
      ∃ c' ∈ out', ContextNotWorse c c') ∧
    ∀ c' ∈ out', LoneResult (listTreeEnv false).toEnv plainOpts
        ([regionTreeMatch, streetTreeMatch].map (withLangs fun _ => 5)) c' ∨
      ∃ c ∈ out, ContextNotWorse c c' := by
  have h1 : (stackAndCoalesce (listTreeEnv false) ([regionTreeMatch, streetTreeMatch].map
      (withLangs fun _ => 4)) plainOpts).map (fun out => decide (out.length < 40 ∧
        ∃ c ∈ out, c.entries.length = 2 ∧ c.relev < lit 0.97)) = some true := by decide +kernel
  have h2 : (stackAndCoalesce (listTreeEnv false) ([regionTreeMatch, streetTreeMatch].map
      (withLangs fun _ => 5)) plainOpts).map (fun out => decide (out.length < 40 ∧
        ∃ c ∈ out, lit 0.98 < c.relev)) =
        some true := by decide +kernel
  obtain ⟨out, h1, h3⟩ := Option.map_eq_some_iff.1 h1
  obtain ⟨out', h2, h4⟩ := Option.map_eq_some_iff.1 h2
  obtain ⟨h3, h5⟩ := of_decide_eq_true h3
  obtain ⟨h4, h6⟩ := of_decide_eq_true h4
  have hl : ∀ _ : ℕ, LangsWithin 4 5 := by intro _ i hi; revert i; decide
  have hd : Delivered [regionTreeMatch, streetTreeMatch] :=
    ⟨by decide +kernel, by decide +kernel, by decide +kernel⟩
  have hroom : RoomForGroups [regionTreeMatch, streetTreeMatch] :=
    room_of_small (by decide +kernel) (by decide +kernel) (by
      intro q hq kg hk
      simp only [List.mem_cons, List.not_mem_nil, or_false] at hq
      rcases hq with rfl | rfl <;> exact ⟨_, by rw [List.mem_singleton.1 hk]⟩)
  have hz : ZoomsAscend [regionTreeMatch, streetTreeMatch] := by
    unfold ZoomsAscend
    decide +kernel
  have hw : WeightsPositive [regionTreeMatch, streetTreeMatch] := by
    unfold WeightsPositive
    decide +kernel
  have ho : OptsWf plainOpts := ⟨by decide, by decide⟩
  exact ⟨out, out', h1, h2, h5, h6,
    C92_search rfl ho (by decide) hl langs_small hd (few_of_small (by decide +kernel)) hz hroom hw h1
      h2 (short_of_few h4),
    C92_nothing_new rfl ho (by decide) hl langs_small hd (few_of_small (by decide +kernel)) hz hroom
      hw h1 h2 (short_of_few h3)⟩

/-- A feature in language 0 with a high score and 40 features in language 1 with a low one. -/
def overtakenStore : Store :=
  Store.openWith ((finish .id ((Builder.new.append ⟨1, 1⟩ [⟨1, 7, 0, 0, 1000, 0⟩]).append ⟨1, 2⟩
    ((List.range 40).map fun i => ⟨1, 1, i, 1, i + 1, 0⟩))).getD []) 6 0 (lit 100) [⟨0, 0, 63, 63⟩] 0

/-- A phrase match in this store. -/
def overtakenMatch : Subquery := ⟨overtakenStore, 0, [], 1, 1, [⟨⟨.exact 1, 4⟩, false, 0, 5⟩]⟩

/-- C92 cannot say it of contexts of one phrase match nothing can be put below: asked for in language
2, the feature in language 0 comes first. Asked for in the languages 1 and 2, it is not among the 40
that are returned. -/
theorem C92_lone_overtaken : ∃ out out',
    stackAndCoalesce (listTreeEnv false) ([overtakenMatch].map (withLangs fun _ => 4)) plainOpts =
      some out ∧
    stackAndCoalesce (listTreeEnv false) ([overtakenMatch].map (withLangs fun _ => 6)) plainOpts =
      some out' ∧
    (∃ c ∈ out.head?, c.first.entry.id = 1000) ∧ ∀ c ∈ out', c.first.entry.id ≠ 1000 := by
  have h1 : (stackAndCoalesce (listTreeEnv false) ([overtakenMatch].map (withLangs fun _ => 4))
      plainOpts).map (fun out => decide (∃ c ∈ out.head?, c.first.entry.id = 1000)) = some true := by
    decide +kernel
  have h2 : (stackAndCoalesce (listTreeEnv false) ([overtakenMatch].map (withLangs fun _ => 6))
      plainOpts).map (fun out => decide (∀ c ∈ out, c.first.entry.id ≠ 1000)) = some true := by
    decide +kernel
  obtain ⟨out, h1, h3⟩ := Option.map_eq_some_iff.1 h1
  obtain ⟨out', h2, h4⟩ := Option.map_eq_some_iff.1 h2
  exact ⟨out, out', h1, h2, of_decide_eq_true h3, of_decide_eq_true h4⟩

end Carmen
