import Verif.Props.Alone
import Verif.Props.EarlyStop

/-!
# C76: a full list of results

The theorems are `C76_tree`, `C76_complete`, `C76_alone` and `C76_from_js`; here is a case where the
list is full and a stack is lost that goes on below one of the seven.
-/

namespace Carmen
open Spec

/-- Hits that stack up have a context. -/
theorem hitsStackUp_context {env : Env} {opts : MatchOpts} {pms : List Subquery} {hs : List Hit}
    (h : HitsStackUp env opts pms hs) : ∃ c, ContextOf env opts pms hs c := by
  classical
  refine ⟨⟨unionMask (hs.map (·.q.mask)),
    if LosesPoints pms hs then sumRelev (hs.map Hit.relev) - lit 0.01 else
      sumRelev (hs.map Hit.relev), hs.reverse.map fun h => toEntry h.grid h.q h.kg.id⟩,
    h.ne, h.stack, ?_, ?_, h.tiles, rfl, fun hn => if_neg hn, fun hl => if_pos hl,
    fun _ => h.answers⟩
  · intro x hx limit _ hl
    obtain ⟨hk, o, before, after, h1, h2, _, _⟩ := h.answers x hx
    rw [hl h.notLone]
    exact ⟨hk, o, _, h1, h2, by simp⟩
  · generalize hs.reverse = l
    induction l with
    | nil => exact .nil
    | cons x l ih => exact .cons (toEntry_madeFrom_id _ _ _) ih

/-! ## Counting stacks -/

/-- All choices of at most one phrase match of each type. -/
def picks (pms : List Subquery) : List ℕ → List (List Subquery)
  | [] => [[]]
  | t :: ts => picks pms ts ++
      (pms.filter fun q => decide (q.store.typeId = t)).flatMap fun q =>
        (picks pms ts).map fun qs => q :: qs

theorem mem_picks {pms : List Subquery} : ∀ {ts : List ℕ} {qs : List Subquery},
    ts.Pairwise (· < ·) → (∀ q ∈ qs, q ∈ pms ∧ q.store.typeId ∈ ts) →
    (qs.Pairwise fun a b => a.store.typeId < b.store.typeId) → qs ∈ picks pms ts
  | [], [], _, _, _ => List.mem_singleton_self _
  | [], q :: qs, _, h, _ => absurd (h q List.mem_cons_self).2 List.not_mem_nil
  | t :: ts, [], hts, _, _ => by
    unfold picks
    exact List.mem_append_left _ (mem_picks (List.pairwise_cons.1 hts).2 (by simp) (by simp))
  | t :: ts, q :: qs, hts, h, hp => by
    unfold picks
    rw [List.pairwise_cons] at hts hp
    have later : ∀ a ∈ qs, a.store.typeId ∈ ts := by
      intro a ha
      rcases List.mem_cons.1 (h a (List.mem_cons_of_mem _ ha)).2 with e | e
      · have h1 := hp.1 a ha
        rcases List.mem_cons.1 (h q List.mem_cons_self).2 with e' | e'
        · omega
        · have := hts.1 _ e'
          omega
      · exact e
    rcases List.mem_cons.1 (h q List.mem_cons_self).2 with e | e
    · refine List.mem_append_right _ (List.mem_flatMap.2 ⟨q, ?_, List.mem_map_of_mem ?_⟩)
      · rw [List.mem_filter]
        exact ⟨(h q List.mem_cons_self).1, by simpa using e⟩
      · exact mem_picks hts.2 (fun a ha => ⟨(h a (List.mem_cons_of_mem _ ha)).1, later a ha⟩) hp.2
    · refine List.mem_append_left _ (mem_picks hts.2 ?_ (List.pairwise_cons.2 hp))
      intro a ha
      rcases List.mem_cons.1 ha with rfl | ha
      · exact ⟨(h _ List.mem_cons_self).1, e⟩
      · exact ⟨(h a (List.mem_cons_of_mem _ ha)).1, later a ha⟩

theorem few_of_picks {n : ℕ} {pms : List Subquery} {ts : List ℕ} (hts : ts.Pairwise (· < ·))
    (h : ∀ q ∈ pms, q.store.typeId ∈ ts) (hn : (picks pms ts).length < n) : FewGroupStacks n pms :=
  fun _ hl hall => (length_le_of_candidates hl fun a ha => mem_picks hts
    (fun q hq => ⟨(hall a ha).2.1.mem q hq, h q ((hall a ha).2.1.mem q hq)⟩)
    (hall a ha).2.1.types).trans_lt hn

/-- Scans of single phrases at low zooms count for no quota. -/
theorem room_of_exact {pms : List Subquery} (hz : ∀ q ∈ pms, q.store.zoom < 14)
    (hx : ∀ q ∈ pms, ∀ kg ∈ q.matchKeys, ∃ i, kg.key.phrase = .exact i) : RoomToTryGroups pms := by
  intro l _ hall
  have key : ∀ s ∈ lastScans l, ¬ WideScan s ∧ ¬ HighScan s := by
    rintro ⟨q, kg⟩ hs
    obtain ⟨st, hst, hs⟩ := List.mem_flatMap.1 hs
    obtain ⟨q', hq', hs⟩ := List.mem_flatMap.1 hs
    obtain ⟨kg', hk, he⟩ := List.mem_map.1 hs
    cases he
    have hq := (hall st hst).2.mem q (List.mem_of_getLast? (Option.mem_toList.1 hq'))
    constructor
    · rintro ⟨a, b, hp, _⟩
      obtain ⟨i, hi⟩ := hx q hq kg hk
      rw [hi] at hp
      cases hp
    · rintro ⟨h, _⟩
      have := hz q hq
      simp only at h
      omega
  have none : ∀ n (p : Subquery × KeyWithId → Prop), (∀ s, p s → WideScan s ∨ HighScan s) →
      AtMost n p (lastScans l) := by
    intro n p hp s hs hall
    cases s with
    | nil => simp
    | cons x s =>
      obtain ⟨h1, h2⟩ := key x (hs.subset (by simp))
      exact absurd (hp x (hall x (by simp))) (by tauto)
  exact ⟨none _ _ fun _ h => Or.inl h.1, none _ _ fun _ h => Or.inl h.1,
    none _ _ fun _ h => Or.inl h.1, none _ _ fun _ h => Or.inl h.1, none _ _ fun _ h => Or.inr h⟩

/-! ## A case -/

/-- The phrase matches of C45, with an index number for each index. -/
def fullRequest : List Subquery := fullPms ++ lostPms.map fun q => { q with idx := q.idx + 20 }

theorem fullRequest_ok : Delivered fullRequest ∧ FewGroupStacks 2000 fullRequest ∧
    ZoomsAscend fullRequest ∧ WeightsPositive fullRequest ∧ RoomToTryGroups fullRequest := by
  refine ⟨⟨by decide +kernel, by decide +kernel, by decide +kernel⟩,
    few_of_picks (ts := [0, 1]) (by decide) (by decide +kernel) (by decide +kernel),
    by unfold ZoomsAscend; decide +kernel, by unfold WeightsPositive; decide +kernel,
    room_of_exact (by decide +kernel) ?_⟩
  have : ∀ q ∈ fullRequest, ∀ kg ∈ q.matchKeys,
      kg.key.phrase = .exact 1 ∨ kg.key.phrase = .exact 2 ∨ kg.key.phrase = .exact 9 := by
    decide +kernel
  intro q hq kg hk
  rcases this q hq kg hk with h | h | h
  · exact ⟨1, h⟩
  · exact ⟨2, h⟩
  · exact ⟨9, h⟩

/-- The run. -/
theorem fullRequest_run : ((stackAndCoalesce (listTreeEnv false) fullRequest plainOpts).bind fun out =>
    (fullRequest[24]?.bind (hitAt · 0)).bind fun a => (fullRequest[25]?.bind (hitAt · 0)).map fun b =>
      decide (out.length = 800) &&
      (a.q.store.bboxes.any fun bb => decide (bb.minX ≤ a.grid.entry.x ∧
        a.grid.entry.x ≤ bb.maxX ∧ bb.minY ≤ a.grid.entry.y ∧ a.grid.entry.y ≤ bb.maxY)) &&
      (b.q.store.bboxes.any fun bb => decide (bb.minX ≤ b.grid.entry.x ∧
        b.grid.entry.x ≤ bb.maxX ∧ bb.minY ≤ b.grid.entry.y ∧ b.grid.entry.y ≤ bb.maxY)) &&
      decide (a.tile.1 ≤ b.tile.1 ∧ a.tile.2.1 = b.tile.2.1 / 2 ^ (b.tile.1 - a.tile.1) ∧
        a.tile.2.2 = b.tile.2.2 / 2 ^ (b.tile.1 - a.tile.1)) &&
      (out.all fun r => decide (r.relev < lit 0.5)) &&
      decide (lit 0.5 < sumRelev [a.relev, b.relev] - lit 0.01) &&
      decide (lit 0.5 < sumRelev [a.relev, b.relev])) = some true := by
  decide +kernel

/-- The region and the street. -/
theorem fullRequest_stack : ((fullRequest[24]?.bind fun x => fullRequest[25]?.map fun y =>
    decide (x ∈ fullRequest) && decide (y ∈ fullRequest) &&
    decide (x.store.typeId < y.store.typeId) && decide (x.mask &&& y.mask = 0) &&
    decide (x.idx ∉ y.nonOverlapping) && decide (129 ∉ x.nonOverlapping))) = some true := by
  decide +kernel

/-- C76: stacks that are one of the seven with something put below cannot be left out of the
exceptions: with all hypotheses of `C76_complete` met, the street in the region has more relevance
than all of the 800 contexts that are returned. -/
theorem C76_seven_needed : ∃ out hs c,
    stackAndCoalesce (listTreeEnv false) fullRequest plainOpts = some out ∧ out.length = 800 ∧
    HitsStackUp (listTreeEnv false).toEnv plainOpts fullRequest hs ∧ hs.length = 2 ∧
    ContextOf (listTreeEnv false).toEnv plainOpts fullRequest hs c ∧
    ∀ r ∈ out, r.relev < c.relev := by
  have hev := fullRequest_run
  obtain ⟨out, hout, hev⟩ := Option.bind_eq_some_iff.1 hev
  obtain ⟨a, ha, hev⟩ := Option.bind_eq_some_iff.1 hev
  obtain ⟨b, hb, hev⟩ := Option.map_eq_some_iff.1 hev
  simp only [Bool.and_eq_true, decide_eq_true_eq, List.any_eq_true, List.all_eq_true] at hev
  obtain ⟨⟨⟨⟨⟨⟨e1, e2⟩, e3⟩, e4⟩, e5⟩, e6⟩, e7⟩ := hev
  obtain ⟨qa, hqa, ha⟩ := Option.bind_eq_some_iff.1 ha
  obtain ⟨qb, hqb, hb⟩ := Option.bind_eq_some_iff.1 hb
  obtain ⟨a1, a2⟩ := hitAt_first ha
  obtain ⟨b1, b2⟩ := hitAt_first hb
  have hstack := fullRequest_stack
  rw [hqa, hqb] at hstack
  simp only [Option.bind_some, Option.map_some, Option.some.injEq, Bool.and_eq_true,
    decide_eq_true_eq] at hstack
  obtain ⟨⟨⟨⟨⟨s1, s2⟩, s3⟩, s4⟩, s5⟩, s6⟩ := hstack
  have hup : HitsStackUp (listTreeEnv false).toEnv plainOpts fullRequest [a, b] := by
    refine ⟨by simp, ?_, ?_, ?_, ?_, ?_⟩
    · rintro ⟨l, h, _⟩
      have := congrArg List.length h
      simp at this
    · rw [List.map_cons, List.map_singleton, a1, b1]
      exact ⟨by simp [s1, s2], by simpa using s3, by simpa using s4, by simpa using s5,
        by simpa using s6⟩
    · intro l hl
      rcases List.mem_cons.1 hl with rfl | hl
      · exact a2
      · rw [List.mem_singleton.1 hl]
        exact b2
    · intro l hl
      rcases List.mem_cons.1 hl with rfl | hl
      · exact e2
      · rw [List.mem_singleton.1 hl]
        exact e3
    · rw [List.isChain_cons_cons]
      exact ⟨e4, List.isChain_singleton _⟩
  obtain ⟨c, hc⟩ := hitsStackUp_context hup
  refine ⟨out, [a, b], c, hout, e1, hup, rfl, hc, fun r hr => (e5 r hr).trans ?_⟩
  by_cases hl : LosesPoints fullRequest [a, b]
  · rw [hc.penalty hl]
    exact e6
  · rw [hc.plain hl]
    exact e7

/-- What C76 says about it: it is one of the seven with something put below. -/
example : ∃ out hs, stackAndCoalesce (listTreeEnv false) fullRequest plainOpts = some out ∧
    HitsStackUp (listTreeEnv false).toEnv plainOpts fullRequest hs ∧
    ∃ tops : List (List Subquery), tops.length ≤ 7 ∧ ContinuesGroup tops (hs.map Hit.q) := by
  obtain ⟨out, hs, c, hout, -, hup, h2, hc, hlt⟩ := C76_seven_needed
  obtain ⟨hd, hfew, hz, hw, hroom⟩ := fullRequest_ok
  obtain ⟨tops, h7, hall⟩ := C76_complete hd hfew (Or.inr hz) hw hroom hout
  have same : ∀ c', ContextOf (listTreeEnv false).toEnv plainOpts fullRequest hs c' →
      c'.relev = c.relev := by
    intro c' hc'
    by_cases hl : LosesPoints fullRequest hs
    · rw [hc.penalty hl, hc'.penalty hl]
    · rw [hc.plain hl, hc'.plain hl]
  refine ⟨out, hs, hout, hup, tops, h7, ?_⟩
  rcases hall hs hup with ⟨c', h1, h2⟩ | ⟨better, h1, h2, h3⟩ | ⟨above, last, h1, ⟨hwide, -⟩, -⟩ |
    ⟨h1, h2 | h2⟩
  · exact absurd (hlt c' h1) (by rw [same c' h2]; exact lt_irrefl _)
  · cases better with
    | nil => simp at h2
    | cons r better =>
      have hr := hlt r (h1.subset (by simp))
      rcases (h3 r (by simp)).2 c hc with h | ⟨h, -⟩
      · exact absurd (h.trans hr) (lt_irrefl _)
      · rw [h] at hr
        exact absurd hr (lt_irrefl _)
  · exfalso
    obtain ⟨x, y, hp, -⟩ := hwide
    have hm : last.q ∈ fullRequest := hup.stack.mem _ (by rw [h1]; simp)
    have hk := (hup.answers last (by rw [h1]; simp)).1
    have : ∀ q ∈ fullRequest, ∀ kg ∈ q.matchKeys,
        kg.key.phrase = .exact 1 ∨ kg.key.phrase = .exact 2 ∨ kg.key.phrase = .exact 9 := by
      decide +kernel
    simp only at hp
    rcases this _ hm _ hk with h | h | h <;> rw [h] at hp <;> cases hp
  · cases out with
    | nil => simp at h1
    | cons r out =>
      exact absurd ((h2 c hc r (by simp)).trans_lt (hlt r (by simp))) (lt_irrefl _)
  · exact h2

end Carmen
