import Verif.Props.FullList

/-!
# C78: what the scan quotas can cost

The theorems are `C78_tree`, `C78_complete`, `C78_unlimited`, `C78_alone` and `C78_from_js`; here is a
case where a quota is spent and what counts against it is lost, and one where a quota is spent and
what does not count against it is found.
-/

namespace Carmen
open Spec

/-- Nine one-letter searches in different indexes. The first eight find nothing. -/
def letterSearches : List Subquery := (List.range 9).map fun i =>
  { regionTreeMatch with
    idx := i, weight := if i < 8 then lit 0.5 else lit 0.45
    matchKeys := [⟨⟨if i < 8 then .range 5 9 else .range 0 5, 1⟩, false, i, 1⟩] }

/-- And a search for another word in the street index, which finds nothing either. -/
def spentRequest : List Subquery := letterSearches ++
  [{ streetTreeMatch with idx := 20, matchKeys := [⟨⟨.exact 9, 1⟩, false, 20, 5⟩] }]

theorem spentRequest_ok : Delivered spentRequest ∧ FewGroupStacks 2000 spentRequest ∧
    ZoomsAscend spentRequest ∧ WeightsPositive spentRequest :=
  ⟨⟨by decide +kernel, by decide +kernel, by decide +kernel⟩,
    few_of_picks (ts := [0, 1]) (by decide) (by decide +kernel) (by decide +kernel),
    by unfold ZoomsAscend; decide +kernel, by unfold WeightsPositive; decide +kernel⟩

/-- The run. -/
theorem spentRequest_run : ((spentRequest[8]?.bind (hitAt · 0)).bind fun a =>
    spentRequest[9]?.map fun y =>
      decide (stackAndCoalesce (listTreeEnv false) spentRequest plainOpts = some []) &&
      (a.q.store.bboxes.any fun bb => decide (bb.minX ≤ a.grid.entry.x ∧
        a.grid.entry.x ≤ bb.maxX ∧ bb.minY ≤ a.grid.entry.y ∧ a.grid.entry.y ≤ bb.maxY)) &&
      decide (a.q ∈ spentRequest) && decide (y ∈ spentRequest) &&
      decide (a.q.store.typeId < y.store.typeId) && decide (a.q.mask &&& y.mask = 0) &&
      decide (a.q.idx ∉ y.nonOverlapping) && decide (129 ∉ a.q.nonOverlapping)) = some true := by
  decide +kernel

/-- C78: where a scan counts against a quota that is spent, even the best and only context can be lost:
after eight one-letter searches that find nothing, the ninth is not made, and nothing is returned
although it would find something. -/
theorem C78_room_needed : ∃ hs, stackAndCoalesce (listTreeEnv false) spentRequest plainOpts = some [] ∧
    HitsStackUp (listTreeEnv false).toEnv plainOpts spentRequest hs ∧
    ∃ c, ContextOf (listTreeEnv false).toEnv plainOpts spentRequest hs c := by
  obtain ⟨a, ha, hev⟩ := Option.bind_eq_some_iff.1 spentRequest_run
  obtain ⟨y, hy, hev⟩ := Option.map_eq_some_iff.1 hev
  simp only [Bool.and_eq_true, decide_eq_true_eq, List.any_eq_true] at hev
  obtain ⟨⟨⟨⟨⟨⟨⟨e1, e2⟩, s1⟩, s2⟩, s3⟩, s4⟩, s5⟩, s6⟩ := hev
  obtain ⟨qa, hqa, ha⟩ := Option.bind_eq_some_iff.1 ha
  obtain ⟨a1, a2⟩ := hitAt_first ha
  have hup : HitsStackUp (listTreeEnv false).toEnv plainOpts spentRequest [a] := by
    refine ⟨by simp, ?_, ?_, ?_, ?_, List.isChain_singleton _⟩
    · rintro ⟨l, h, hx⟩
      cases h
      exact hx ⟨y, by simp [s1, s2], by simpa using s3, by simpa using s4, by simpa using s5,
        by simpa using s6⟩
    · exact ⟨by simpa using s1, by simp, by simp, by simp, by simpa using s6⟩
    · intro l hl
      rw [List.mem_singleton.1 hl]
      exact a2
    · intro l hl
      rw [List.mem_singleton.1 hl]
      exact e2
  obtain ⟨c, hc⟩ := hitsStackUp_context hup
  exact ⟨[a], e1, hup, c, hc⟩

/-- What C78 says about it: the quotas are not enough for the ninth. -/
example : ¬ RoomInGroups spentRequest ((spentRequest[8]?).getD streetTreeMatch,
    ⟨⟨.range 0 5, 1⟩, false, 8, 1⟩) := by
  intro hroom
  have hl := hroom (letterSearches.map fun q => [q]) (by decide +kernel) (by
    intro qs hqs
    obtain ⟨q, hq, rfl⟩ := List.mem_map.1 hqs
    have hq' : q ∈ spentRequest := List.mem_append_left _ hq
    have : ∀ q ∈ letterSearches, 129 ∉ q.nonOverlapping := by decide +kernel
    exact ⟨by simp, by simpa using hq', by simp, by simp, by simp, by simpa using this q hq⟩)
  have wide : ∀ s : Subquery × KeyWithId, (s.2.key.phrase = .range 5 9 ∨ s.2.key.phrase = .range 0 5) →
      WideScan s := by
    rintro s (h | h)
    · exact ⟨5, 9, h, by omega⟩
    · exact ⟨0, 5, h, by omega⟩
  have one : ∀ s : Subquery × KeyWithId, s.1.mask = 1 → CoversOne s := by
    intro s h
    refine ⟨0, by omega, ?_⟩
    rw [h]
    decide +kernel
  have h8 := hl.letters (wide _ (Or.inr rfl)) (one _ (by decide +kernel)) rfl _ (List.Sublist.refl _)
  have hall : ∀ s ∈ lastScans (letterSearches.map fun q => [q]),
      (s.2.key.phrase = .range 5 9 ∨ s.2.key.phrase = .range 0 5) ∧ s.1.mask = 1 ∧
        s.2.phraseLength = 1 := by decide +kernel
  have := h8 fun s hs => ⟨wide s (hall s hs).1, one s (hall s hs).2.1, (hall s hs).2.2⟩
  exact absurd this (by decide +kernel)

/-- The nine one-letter searches, and a search for a region and a street. -/
def besideRequest : List Subquery := letterSearches ++
  [{ regionTreeMatch with idx := 20, mask := 4, matchKeys := [⟨⟨.exact 1, 1⟩, false, 20, 5⟩] },
   { streetTreeMatch with idx := 21, matchKeys := [⟨⟨.exact 2, 1⟩, false, 21, 5⟩] }]

/-- The run. -/
theorem besideRequest_run : ((stackAndCoalesce (listTreeEnv false) besideRequest plainOpts).bind fun out =>
    (besideRequest[9]?.bind (hitAt · 0)).bind fun a => (besideRequest[10]?.bind (hitAt · 0)).map fun b =>
      decide (out.length < 40) &&
      (a.q.store.bboxes.any fun bb => decide (bb.minX ≤ a.grid.entry.x ∧
        a.grid.entry.x ≤ bb.maxX ∧ bb.minY ≤ a.grid.entry.y ∧ a.grid.entry.y ≤ bb.maxY)) &&
      (b.q.store.bboxes.any fun bb => decide (bb.minX ≤ b.grid.entry.x ∧
        b.grid.entry.x ≤ bb.maxX ∧ bb.minY ≤ b.grid.entry.y ∧ b.grid.entry.y ≤ bb.maxY)) &&
      decide (a.tile.1 ≤ b.tile.1 ∧ a.tile.2.1 = b.tile.2.1 / 2 ^ (b.tile.1 - a.tile.1) ∧
        a.tile.2.2 = b.tile.2.2 / 2 ^ (b.tile.1 - a.tile.1)) &&
      decide (a.q ∈ besideRequest) && decide (b.q ∈ besideRequest) &&
      decide (a.q.store.typeId < b.q.store.typeId) && decide (a.q.mask &&& b.q.mask = 0) &&
      decide (a.q.idx ∉ b.q.nonOverlapping) && decide (129 ∉ a.q.nonOverlapping) &&
      decide (a.q.store.zoom < 14) && decide (b.q.store.zoom < 14) &&
      decide (a.kg.key.phrase = .exact 1) && decide (b.kg.key.phrase = .exact 2)) = some true := by
  decide +kernel

/-- The hypotheses of `C78_unlimited` hold although there are more one-letter searches than their quota
allows: the street in the region comes back. -/
example : ∃ out hs, stackAndCoalesce (listTreeEnv false) besideRequest plainOpts = some out ∧
    hs.length = 2 ∧ ∃ c ∈ out, ContextOf (listTreeEnv false).toEnv plainOpts besideRequest hs c := by
  obtain ⟨out, hout, hev⟩ := Option.bind_eq_some_iff.1 besideRequest_run
  obtain ⟨a, ha, hev⟩ := Option.bind_eq_some_iff.1 hev
  obtain ⟨b, hb, hev⟩ := Option.map_eq_some_iff.1 hev
  simp only [Bool.and_eq_true, decide_eq_true_eq, List.any_eq_true] at hev
  obtain ⟨⟨⟨⟨⟨⟨⟨⟨⟨⟨⟨⟨⟨e1, e2⟩, e3⟩, e4⟩, s1⟩, s2⟩, s3⟩, s4⟩, s5⟩, s6⟩, z1⟩, z2⟩, p1⟩, p2⟩ := hev
  obtain ⟨qa, hqa, ha⟩ := Option.bind_eq_some_iff.1 ha
  obtain ⟨qb, hqb, hb⟩ := Option.bind_eq_some_iff.1 hb
  obtain ⟨a1, a2⟩ := hitAt_first ha
  obtain ⟨b1, b2⟩ := hitAt_first hb
  have hup : HitsStackUp (listTreeEnv false).toEnv plainOpts besideRequest [a, b] := by
    refine ⟨by simp, ?_, ?_, ?_, ?_, ?_⟩
    · rintro ⟨l, h, _⟩
      have := congrArg List.length h
      simp at this
    · exact ⟨by simp [s1, s2], by simpa using s3, by simpa using s4, by simpa using s5,
        by simpa using s6⟩
    · intro l hl
      rcases List.mem_cons.1 hl with rfl | hl
      · exact a2
      · rw [List.mem_singleton.1 hl]
        exact b2
    · intro l hl
      rcases List.mem_cons.1 hl with rfl | hl
      · exact e2
      · rw [List.mem_singleton.1 hl]
        exact e3
    · rw [List.isChain_cons_cons]
      exact ⟨e4, List.isChain_singleton _⟩
  have free : ∀ (h : Hit) (i : ℕ), h.q.store.zoom < 14 → h.kg.key.phrase = .exact i →
      Unlimited (h.q, h.kg) := by
    intro h i hz hp
    refine ⟨?_, fun hh => ?_⟩
    · rintro ⟨⟨x, y, hxy, -⟩, -⟩
      simp only at hxy
      rw [hp] at hxy
      cases hxy
    · have := hh.1
      simp only at this
      omega
  have hd : Delivered besideRequest ∧ FewGroupStacks 2000 besideRequest ∧ ZoomsAscend besideRequest :=
    ⟨⟨by decide +kernel, by decide +kernel, by decide +kernel⟩,
      few_of_picks (ts := [0, 1]) (by decide) (by decide +kernel) (by decide +kernel),
      by unfold ZoomsAscend; decide +kernel⟩
  refine ⟨out, [a, b], hout, rfl, ?_⟩
  rcases C78_unlimited hd.1 hd.2.1 (Or.inr hd.2.2) hout (by omega) hup (by
    intro h hh
    rcases List.mem_cons.1 hh with rfl | hh
    · exact free _ 1 z1 p1
    · rw [List.mem_singleton.1 hh]
      exact free _ 2 z2 p2) with h | ⟨better, h1, h2, -⟩
  · exact h
  · have := h1.length_le
    omega

end Carmen
