import Verif.Spec.Weights
import Verif.Props.LanguagesSearch

/-!
# C95: a heavier phrase match ranks no lower
-/

namespace Carmen
open Format Spec Builder

theorem withWeight_form (w w' : ℕ → F64) (qs : List Subquery) :
    SameForm (withWeight w') (fun _ kg => kg) (qs.map (withWeight w)) (qs.map (withWeight w')) where
  mask _ := rfl
  idx _ := rfl
  nonOverlapping _ := rfl
  matchKeys q := by rw [List.map_id']; rfl
  id _ _ := rfl
  typeId _ _ := rfl
  zoom _ _ := rfl
  mem q hq := by
    obtain ⟨a, ha, rfl⟩ := List.mem_map.1 hq
    exact List.mem_map.2 ⟨a, ha, rfl⟩
  onto q hq := by
    obtain ⟨a, ha, rfl⟩ := List.mem_map.1 hq
    exact ⟨_, List.mem_map_of_mem ha, rfl⟩

theorem withWeight_delivered (w : ℕ → F64) {qs : List Subquery} (h : Delivered qs) :
    Delivered (qs.map (withWeight w)) := by
  refine ⟨?_, ?_, ?_⟩
  · intro q hq
    obtain ⟨a, ha, rfl⟩ := List.mem_map.1 hq
    exact h.one a ha
  · rw [List.flatMap_map]
    exact h.ids
  · intro a ha b hb hab
    obtain ⟨a, ha', rfl⟩ := List.mem_map.1 ha
    obtain ⟨b, hb', rfl⟩ := List.mem_map.1 hb
    exact h.index a ha' b hb' hab

theorem withWeight_zooms (w : ℕ → F64) {qs : List Subquery} (h : ZoomsAscend qs) :
    ZoomsAscend (qs.map (withWeight w)) := by
  intro a ha b hb
  obtain ⟨a, ha', rfl⟩ := List.mem_map.1 ha
  obtain ⟨b, hb', rfl⟩ := List.mem_map.1 hb
  exact h a ha' b hb'

section
variable {env : Env} {opts : MatchOpts} {qs : List Subquery}

theorem withWeight_first (w : ℕ → F64) {h : Hit} :
    (moveTo (withWeight w) (fun _ kg => kg) h h.grid).FirstAnswer env opts ↔ h.FirstAnswer env opts :=
  Iff.rfl

theorem withWeight_improve {R : F64 → F64 → Prop} (hR : Direction R) (w w' : ℕ → F64) :
    Improves R env opts opts (withWeight w') (fun _ kg => kg) (qs.map (withWeight w)) :=
  fun h _ hf => ⟨h.grid, (withWeight_first w').2 hf, ⟨rfl, rfl, rfl⟩, hR.refl _⟩

theorem withWeight_boxes (w : ℕ → F64) (h : BoxesCover env opts qs) :
    BoxesCover env opts (qs.map (withWeight w)) := by
  rintro ⟨q, kg, g⟩ hq hf
  obtain ⟨q, hq', rfl⟩ := List.mem_map.1 hq
  exact h ⟨q, kg, g⟩ hq' hf

end

/-- **C95**: when phrase matches are given more weight, every context comes back with the same tiles,
features and phrase matches, and at least its relevance. Left out are contexts of one phrase match
nothing can be put below, which compete for 40 places. -/
theorem C95_search {env : TreeEnv} {qs : List Subquery} {opts : MatchOpts} {w w' : ℕ → F64}
    (hle : NoHeavier w w' qs) (hw : WeightsPositive (qs.map (withWeight w)))
    (hw' : WeightsPositive (qs.map (withWeight w'))) (hd : Delivered qs) (hz : ZoomsAscend qs)
    (hbox : BoxesCover env.toEnv opts qs) (hfew : FewGroupStacks 2000 (qs.map (withWeight w)))
    (hfew' : FewGroupStacks 2000 (qs.map (withWeight w')))
    (hroom' : RoomForGroups (qs.map (withWeight w'))) {out out' : List Context}
    (hout : stackAndCoalesce env (qs.map (withWeight w)) opts = some out)
    (hout' : stackAndCoalesce env (qs.map (withWeight w')) opts = some out') (hlen : Short out') :
    ∀ c ∈ out, LoneResult env.toEnv opts (qs.map (withWeight w)) c ∨
      ∃ c' ∈ out', ContextNotWorse c c' := by
  intro c hc
  rcases C81_sound (withWeight_delivered w hd) hfew (Or.inr (withWeight_zooms w hz)) hout c hc with
    ⟨hs, h1, h2⟩ | h
  · right
    have hww : ∀ q ∈ qs.map (withWeight w), q.weight ≤ (withWeight w' q).weight := by
      intro q hq
      obtain ⟨a, ha, rfl⟩ := List.mem_map.1 hq
      exact hle a ha
    obtain ⟨hs', c', -, h3, h4, h5⟩ := better_context (withWeight_form w w' qs) (Or.inl rfl) hw hw'
      hww (withWeight_improve (Or.inl rfl) w w') h1 h2
    exact ⟨c', C81_complete (withWeight_delivered w' hd) hfew' (Or.inr (withWeight_zooms w' hz))
      hroom' (withWeight_boxes w' hbox) hout' hlen c' (Or.inl ⟨hs', h3, h4⟩), h5.up⟩
  · exact Or.inl h

/-- **C95**: more weight brings no context of other tiles, features or phrase matches. -/
theorem C95_nothing_new {env : TreeEnv} {qs : List Subquery} {opts : MatchOpts} {w w' : ℕ → F64}
    (hle : NoHeavier w w' qs) (hw : WeightsPositive (qs.map (withWeight w)))
    (hw' : WeightsPositive (qs.map (withWeight w'))) (hd : Delivered qs) (hz : ZoomsAscend qs)
    (hbox : BoxesCover env.toEnv opts qs) (hfew : FewGroupStacks 2000 (qs.map (withWeight w)))
    (hfew' : FewGroupStacks 2000 (qs.map (withWeight w')))
    (hroom : RoomForGroups (qs.map (withWeight w))) {out out' : List Context}
    (hout : stackAndCoalesce env (qs.map (withWeight w)) opts = some out)
    (hout' : stackAndCoalesce env (qs.map (withWeight w')) opts = some out') (hlen : Short out) :
    ∀ c' ∈ out', LoneResult env.toEnv opts (qs.map (withWeight w')) c' ∨
      ∃ c ∈ out, ContextNotWorse c c' := by
  intro c hc
  rcases C81_sound (withWeight_delivered w' hd) hfew' (Or.inr (withWeight_zooms w' hz)) hout' c hc with
    ⟨hs, h1, h2⟩ | h
  · right
    have hww : ∀ q ∈ qs.map (withWeight w'), q.weight ≥ (withWeight w q).weight := by
      intro q hq
      obtain ⟨a, ha, rfl⟩ := List.mem_map.1 hq
      exact hle a ha
    obtain ⟨hs', c', -, h3, h4, h5⟩ := better_context (withWeight_form w' w qs) (Or.inr (Or.inl rfl)) hw' hw
      hww (withWeight_improve (Or.inr (Or.inl rfl)) w' w) h1 h2
    exact ⟨c', C81_complete (withWeight_delivered w hd) hfew (Or.inr (withWeight_zooms w hz))
      hroom (withWeight_boxes w hbox) hout hlen c' (Or.inl ⟨hs', h3, h4⟩), h5.down⟩
  · exact Or.inl h

/-- The entries of a context carry the ids of the match keys of its hits. -/
theorem Spec.ContextOf.ids {env : Env} {opts : MatchOpts} {pms : List Subquery} {hs : List Hit}
    {c : Context} (h : ContextOf env opts pms hs c) {x : Hit} (hx : x ∈ hs) :
    ∃ e ∈ c.entries, e.phrasematchId = x.kg.id := by
  obtain ⟨e, h1, -, h2⟩ := forall₂_mem_left h.entries (List.mem_reverse.2 hx)
  exact ⟨e, h1, h2⟩

/-- **C95**: a context all of whose phrase matches keep their weight comes back as it is, whatever the
weights of the other phrase matches. -/
theorem C95_same {env : TreeEnv} {qs : List Subquery} {opts : MatchOpts} {w w' : ℕ → F64}
    (hd : Delivered qs) (hz : ZoomsAscend qs)
    (hbox : BoxesCover env.toEnv opts qs) (hfew : FewGroupStacks 2000 (qs.map (withWeight w)))
    (hfew' : FewGroupStacks 2000 (qs.map (withWeight w')))
    (hroom' : RoomForGroups (qs.map (withWeight w'))) {out out' : List Context}
    (hout : stackAndCoalesce env (qs.map (withWeight w)) opts = some out)
    (hout' : stackAndCoalesce env (qs.map (withWeight w')) opts = some out') (hlen : Short out') :
    ∀ c ∈ out, (∀ e ∈ c.entries, w' e.phrasematchId = w e.phrasematchId) →
      LoneResult env.toEnv opts (qs.map (withWeight w)) c ∨ c ∈ out' := by
  intro c hc hsame
  rcases C81_sound (withWeight_delivered w hd) hfew (Or.inr (withWeight_zooms w hz)) hout c hc with
    ⟨hs, h1, h2⟩ | h
  · right
    have hmv : SameLookups env.toEnv opts opts (withWeight w') (fun _ kg => kg)
        (qs.map (withWeight w)) (qs.map (withWeight w')) :=
      ⟨withWeight_form w w' qs, fun _ _ _ _ _ => rfl⟩
    have hq : ∀ h ∈ hs, h.q ∈ qs.map (withWeight w) ∧ h.kg ∈ h.q.matchKeys := h2.keys
    have hwt : ∀ h ∈ hs, (withWeight w' h.q).weight = h.q.weight := by
      intro h hh
      obtain ⟨e, he, hid⟩ := h2.ids hh
      obtain ⟨hm, hk⟩ := hq h hh
      obtain ⟨a, ha, e1⟩ := List.mem_map.1 hm
      have hone := hd.one a ha
      rw [← e1] at hk ⊢
      have hk : h.kg ∈ a.matchKeys := hk
      obtain ⟨k, hak⟩ := List.length_eq_one_iff.1 hone
      rw [hak, List.mem_singleton] at hk
      have e2 := hsame e he
      rw [hid, hk] at e2
      unfold withWeight
      simp only [hak, List.map_cons, List.map_nil, List.headD_cons]
      exact e2
    refine C81_complete (withWeight_delivered w' hd) hfew' (Or.inr (withWeight_zooms w' hz))
      hroom' (withWeight_boxes w' hbox) hout' hlen c (Or.inl ⟨_, ?_, (hmv.contextOf hq hwt).2 h2⟩)
    exact fun hl => h1 ((hmv.toSameForm.lone fun h hh => (hq h hh).1).1 hl)
  · exact Or.inl h

/-- **C95**: raising the weights of phrase matches never makes a context fall behind one with less
relevance that has none of them. -/
theorem C95_rank {env : TreeEnv} {qs : List Subquery} {opts : MatchOpts} {w w' : ℕ → F64}
    (hle : NoHeavier w w' qs) (hw : WeightsPositive (qs.map (withWeight w)))
    (hw' : WeightsPositive (qs.map (withWeight w'))) (hd : Delivered qs) (hz : ZoomsAscend qs)
    (hbox : BoxesCover env.toEnv opts qs) (hfew : FewGroupStacks 2000 (qs.map (withWeight w)))
    (hfew' : FewGroupStacks 2000 (qs.map (withWeight w')))
    (hroom' : RoomForGroups (qs.map (withWeight w'))) {out out' : List Context}
    (hout : stackAndCoalesce env (qs.map (withWeight w)) opts = some out)
    (hout' : stackAndCoalesce env (qs.map (withWeight w')) opts = some out') (hlen : Short out')
    {c d : Context} (hc : c ∈ out) (hdm : d ∈ out) (hlt : d.relev < c.relev)
    (hsame : ∀ e ∈ d.entries, w' e.phrasematchId = w e.phrasematchId)
    (hlc : ¬ LoneResult env.toEnv opts (qs.map (withWeight w)) c)
    (hld : ¬ LoneResult env.toEnv opts (qs.map (withWeight w)) d) :
    ∃ above c' below, out' = above ++ c' :: below ∧ ContextNotWorse c c' ∧ d ∈ below := by
  obtain ⟨c', h1, h2⟩ := (C95_search hle hw hw' hd hz hbox hfew hfew' hroom' hout hout' hlen c
    hc).resolve_left hlc
  have h3 := (C95_same hd hz hbox hfew hfew' hroom' hout hout' hlen d hdm hsame).resolve_left hld
  obtain ⟨above, below, rfl⟩ := List.append_of_mem h1
  refine ⟨above, c', below, rfl, h2, ?_⟩
  have hgt : d.relev < c'.relev := lt_of_lt_of_le hlt h2.relev
  rcases List.mem_append.1 h3 with h3 | h3
  · have := (List.pairwise_append.1 (request_sorted hout')).2.2 d h3 c' List.mem_cons_self
    rcases bestFirst_of_sortKey this with h | ⟨h, -⟩
    · exact absurd hgt (lt_asymm h)
    · exact absurd h hgt.ne'
  · rcases List.mem_cons.1 h3 with rfl | h3
    · exact absurd hgt (lt_irrefl _)
    · exact h3


/-! ## An example -/

/-- A context of a phrase match nothing can be put below has one entry, with its id. -/
theorem loneResult_entries {env : Env} {opts : MatchOpts} {pms : List Subquery} {c : Context}
    (h : LoneResult env opts pms c) : ∃ q ∈ pms, ∃ kg ∈ q.matchKeys, ¬ Extendable pms [q] ∧
      c.entries.map (·.phrasematchId) = [kg.id] := by
  obtain ⟨q, kg, o, grids, all, h1, h2, h3, -, -, h4, h5⟩ := h
  obtain ⟨g, -, rfl⟩ := treeSingle_made h4 c h5
  exact ⟨q, h1.mem q (by simp), kg, h3, h2, rfl⟩

/-- The street in the region, with these weights. -/
def weighed (w : ℕ → F64) : List Subquery := [regionTreeMatch, streetTreeMatch].map (withWeight w)

/-- Half for the region and a quarter for the street. -/
def lightStreet (id : ℕ) : F64 := if id = 0 then lit 0.5 else lit 0.25

/-- Half for both. -/
def heavyStreet (_ : ℕ) : F64 := lit 0.5

theorem weighed_extendable (w : ℕ → F64) : Extendable (weighed w) [withWeight w regionTreeMatch] :=
  ⟨withWeight w streetTreeMatch, by simp [weighed], by
    have : regionTreeMatch.store.typeId < streetTreeMatch.store.typeId := by decide +kernel
    simpa [withWeight] using this, by
    simp [withWeight, regionTreeMatch, streetTreeMatch, regionMatch, streetMatch], by
    simp [withWeight, regionTreeMatch, streetTreeMatch, regionMatch, streetMatch], by
    simp [withWeight, regionTreeMatch, streetTreeMatch, regionMatch, streetMatch]⟩

/-- The street gets more weight. What is found in a region stays above the region itself, which stays
as it is. -/
example : ∃ out out' above c' below d, stackAndCoalesce (listTreeEnv false) (weighed lightStreet)
      plainOpts = some out ∧
    stackAndCoalesce (listTreeEnv false) (weighed heavyStreet) plainOpts = some out' ∧
    d ∈ out ∧ d.entries.map (·.phrasematchId) = [0] ∧ out' = above ++ c' :: below ∧ d ∈ below ∧
    c'.entries.map (·.phrasematchId) = [1, 0] := by
  have h1 : (stackAndCoalesce (listTreeEnv false) (weighed lightStreet) plainOpts).map
      (fun out => decide (∃ c ∈ out, ∃ d ∈ out, d.relev < c.relev ∧
        c.entries.map (·.phrasematchId) = [1, 0] ∧ d.entries.map (·.phrasematchId) = [0])) =
      some true := by decide +kernel
  have h2 : (stackAndCoalesce (listTreeEnv false) (weighed heavyStreet) plainOpts).map
      (fun out => decide (out.length < 40)) = some true := by decide +kernel
  obtain ⟨out, h1, h3⟩ := Option.map_eq_some_iff.1 h1
  obtain ⟨out', h2, h4⟩ := Option.map_eq_some_iff.1 h2
  obtain ⟨c, hc, d, hdm, hlt, ec, ed⟩ := of_decide_eq_true h3
  have h4 := of_decide_eq_true h4
  have hroom : RoomForGroups (weighed heavyStreet) :=
    room_of_small (by decide +kernel) (by decide +kernel) (by
      intro q hq kg hk
      simp only [weighed, List.map_cons, List.map_nil, List.mem_cons, List.not_mem_nil, or_false] at hq
      rcases hq with rfl | rfl <;> exact ⟨_, by rw [List.mem_singleton.1 hk]⟩)
  have hz : ZoomsAscend [regionTreeMatch, streetTreeMatch] := by
    unfold ZoomsAscend
    decide +kernel
  obtain ⟨above, c', below, r1, r2, r3⟩ := C95_rank (w := lightStreet) (w' := heavyStreet)
    (qs := [regionTreeMatch, streetTreeMatch]) (by unfold NoHeavier; decide +kernel)
    (by unfold WeightsPositive; decide +kernel) (by unfold WeightsPositive; decide +kernel)
    ⟨by decide +kernel, by decide +kernel, by decide +kernel⟩ hz region_street_boxes
    (few_of_small (by decide +kernel)) (few_of_small (by decide +kernel)) hroom h1 h2
    (short_of_few h4) hc hdm hlt (by
      intro e he
      have : e.phrasematchId ∈ d.entries.map (·.phrasematchId) := List.mem_map_of_mem he
      rw [ed, List.mem_singleton] at this
      rw [this]
      rfl) (by
      intro h
      obtain ⟨q, -, kg, -, -, e⟩ := loneResult_entries h
      rw [ec] at e
      simp at e) (by
      intro h
      obtain ⟨q, hq, kg, hk, hn, e⟩ := loneResult_entries h
      rw [ed] at e
      simp only [List.map_cons, List.map_nil, List.mem_cons, List.not_mem_nil, or_false] at hq
      rcases hq with rfl | rfl
      · exact hn (weighed_extendable lightStreet)
      · rw [List.mem_singleton.1 hk] at e
        cases e)
  refine ⟨out, out', above, c', below, d, h1, h2, hdm, ed, r1, r3, ?_⟩
  have : ∀ {xs ys : List CoalesceEntry}, List.Forall₂ PartNotWorse xs ys →
      ys.map (·.phrasematchId) = xs.map (·.phrasematchId) := by
    intro xs ys h
    induction h with
    | nil => rfl
    | cons h1 _ ih => rw [List.map_cons, List.map_cons, ih, h1.match_.1]
  rw [this r2.parts, ec]

end Carmen
