import Verif.Lemmas.TreeComplete
import Verif.Props.TreeCoalesce

/-!
# C55: what `tree_coalesce` does not miss
-/

namespace Carmen
open Format Spec Builder

/-- Contexts of the same levels rank the same. -/
theorem stacked_sortKey {env : Env} {t : StackTree} {opts : MatchOpts} {ls : List Level}
    {c c' : Context} (h : StackedFrom env t opts ls c) (h' : StackedFrom env t opts ls c') :
    c.sortKey = c'.sortKey := by
  have hrel : c.relev = c'.relev := by
    by_cases hp : Penalized ls
    · rw [h.penalty hp, h'.penalty hp]
    · rw [h.plain hp, h'.plain hp]
  obtain ⟨l, rest, he⟩ : ∃ l rest, ls.reverse = l :: rest := by
    cases hre : ls.reverse with
    | nil => exact absurd (List.reverse_eq_nil_iff.1 hre) h.ne
    | cons l rest => exact ⟨l, rest, rfl⟩
  have h1 := h.entries
  have h2 := h'.entries
  rw [he] at h1 h2
  obtain ⟨mask, relev, entries⟩ := c
  obtain ⟨mask', relev', entries'⟩ := c'
  simp only at h1 h2 hrel
  cases h1 with
  | cons a1 _ =>
    cases h2 with
    | cons a2 _ =>
      obtain ⟨⟨i1, x1, y1, _, _, _, _, _, s1, _, d1, _⟩, _⟩ := a1
      obtain ⟨⟨i2, x2, y2, _, _, _, _, _, s2, _, d2, _⟩, _⟩ := a2
      unfold Context.sortKey Context.first
      simp only [List.headD_cons]
      rw [hrel, s1, s2, d1, d2, x1, x2, y1, y2, i1, i2]

theorem ranksBefore_iff {a b : Context} : RanksBefore a b ↔ b.sortKey ≤ a.sortKey := by
  unfold RanksBefore Context.sortKey
  simp only [Prod.Lex.toLex_le_toLex, OrderDual.toDual_lt_toDual,
      OrderDual.toDual_inj, eq_comm (a := b.first.idx)]

theorem goesBelow_of_cutOff {few : List StackNode} {ls : List Level} (h : CutOff few ls) :
    GoesBelow few ls := by
  obtain ⟨pre, l, post, rfl, n, hn, hl⟩ := h
  rcases List.eq_nil_or_concat pre with rfl | ⟨up, u, rfl⟩
  · cases hl
  · rw [List.concat_eq_append] at hl ⊢
    rw [List.map_append, List.map_singleton, List.getLast?_concat] at hl
    exact ⟨up, u, l, post, by simp, by rw [Option.some.inj hl]; exact hn⟩

/-- Where bounding boxes contain the tiles, the path is open. -/
theorem Spec.StacksUp.climbs {env : Env} {t : StackTree} {opts : MatchOpts} {ls : List Level}
    (h : StacksUp env t opts ls) (hroom : ∀ l ∈ ls, RoomToTryFor (scansOf t) (l.q, l.kg)) :
    Climbs env t opts ls := by
  refine ⟨h.ne, h.notAlone, h.path, h.answers, h.tiles, ?_⟩
  intro above n below he hne q hq
  obtain ⟨pre, rest, rfl, rfl, hrest⟩ := List.map_eq_append_iff.1 he
  obtain ⟨l', post, rfl, rfl, rfl⟩ := List.map_eq_cons_iff.1 hrest
  rcases List.eq_nil_or_concat pre with rfl | ⟨up, l, rfl⟩
  · exact absurd rfl hne
  rw [List.concat_eq_append] at *
  have hq' : q = l'.q := by
    have := (h.answers l' (by simp)).1
    rw [hq] at this
    exact Option.some.inj this
  subst hq'
  refine ⟨up, l, ⟨rfl, fun a ha => h.answers a (List.mem_append_left _ ha),
    fun a ha => hroom a (List.mem_append_left _ ha), (List.isChain_append.1 h.tiles).1⟩, fun _ => ?_⟩
  have ht := h.tiles
  rw [List.append_assoc, List.singleton_append] at ht
  have ht := (List.isChain_append.1 ht).2.1
  rw [List.isChain_cons_cons] at ht
  obtain ⟨_, hx, hy⟩ := ht.1
  have hx : l.grid.entry.x = l'.grid.entry.x / 2 ^ (l'.q.store.zoom - l.q.store.zoom) := hx
  have hy : l.grid.entry.y = l'.grid.entry.y / 2 ^ (l'.q.store.zoom - l.q.store.zoom) := hy
  obtain ⟨b, hb, h1, h2, h3, h4⟩ := h.boxes l' (by simp)
  refine ⟨b, hb, ?_⟩
  rw [hx, hy]
  exact ⟨Nat.div_le_div_right h1, Nat.div_le_div_right h2, Nat.div_le_div_right h3,
    Nat.div_le_div_right h4⟩

/-- What becomes of grids that stack up along an open path when the quotas are enough for their
scans. -/
theorem tree_full_open {env : TreeEnv} {sm : ℕ} {pms : List Subquery} {t : StackTree}
    {opts : MatchOpts} {out : List Context} (h : stackableWith sm pms = some t)
    (hids : IdsUnique pms) (hz : env.chk = true ∨ ZoomsAscend pms)
    (hout : treeCoalesce env t opts = some out) :
    ∃ few : List StackNode, few.length ≤ 7 ∧ ∀ ls, Climbs env.toEnv t opts ls →
    (∀ l ∈ ls, RoomToTryFor (scansOf t) (l.q, l.kg)) → (((∃ c ∈ out, StackedFrom env.toEnv t opts ls c) ∨
    ∃ better : List Context, better.Subperm out ∧ better.length = 40 ∧ ∀ r ∈ better,
      (∃ ls', StackedFrom env.toEnv t opts ls' r ∧ SameLastKey ls' ls) ∧
      ∀ c, StackedFrom env.toEnv t opts ls c → RanksBefore r c) ∨
    Dropped env t opts pms ls out) ∨
    (out.length = 800 ∧ ((WeightsOk pms → ∀ c, StackedFrom env.toEnv t opts ls c →
      ∀ r ∈ out, c.relev ≤ r.relev) ∨ GoesBelow few ls)) := by
  have hmax := (C42_bounded_sorted hout).1
  obtain ⟨s₀, s, h1, h2, rfl⟩ := treeCoalesce_some hout
  have hperm := env.contexts.intoVecDesc_perm s.contexts
  rw [hperm.length_eq] at hmax
  have full : maxResults ≤ s.contexts.length → (env.contexts.intoVecDesc s.contexts).length = 800 := by
    intro hge
    rw [hperm.length_eq]
    exact le_antisymm hmax hge
  have hr : RunOk env t opts pms := ⟨⟨sm, h⟩, hids, hz⟩
  obtain ⟨few, hfew, hall⟩ := treeLoop_full hr (C32_tree_shape h) h1 h2
  refine ⟨few, hfew, fun ls hs hroom => ?_⟩
  have hst : StackedFrom env.toEnv t opts ls (finalCtx ls) := by
    have hb := stackCtx_built hs
    rcases List.eq_nil_or_concat ls with rfl | ⟨up, l, rfl⟩
    · exact absurd rfl hs.ne
    · rw [List.concat_eq_append] at hb hs ⊢
      refine hb.penalize ?_
      rintro rfl hnil
      exact hs.notAlone ⟨l, rfl, hnil⟩
  rcases hall ls hs hroom with ((hf | ⟨better, hsub, hbl, hb⟩) | hd | ho) | ⟨hge, ⟨n, hn, hb⟩ | hcut⟩
  · exact Or.inl (Or.inl (Or.inl ⟨_, hperm.mem_iff.2 hf, hst⟩))
  · refine Or.inl (Or.inl (Or.inr ⟨better, hsub.trans hperm.symm.subperm, hbl,
      fun r hrb => ⟨(hb r hrb).2, ?_⟩⟩))
    intro c hc
    rw [ranksBefore_iff, stacked_sortKey hc hst]
    exact (hb r hrb).1
  · exact Or.inl (Or.inr (hd.mono hperm.symm.subperm))
  · refine Or.inr ⟨full ho.1, Or.inl fun _ c hc r hrr => ?_⟩
    rw [← stacked_sortKey hc hst] at ho
    exact ho.relev r (hperm.mem_iff.1 hrr)
  · exact Or.inr ⟨full hge, Or.inl fun hw c hc r hrr =>
      (through_bound h hids hz hw hc hn).trans (hb r (hperm.mem_iff.1 hrr))⟩
  · exact Or.inr ⟨full hge, Or.inr (goesBelow_of_cutOff hcut)⟩

/-- What becomes of grids that stack up when the quotas are enough for their scans. -/
theorem tree_full {env : TreeEnv} {sm : ℕ} {pms : List Subquery} {t : StackTree}
    {opts : MatchOpts} {out : List Context} (h : stackableWith sm pms = some t)
    (hids : IdsUnique pms) (hz : env.chk = true ∨ ZoomsAscend pms)
    (hout : treeCoalesce env t opts = some out) :
    ∃ few : List StackNode, few.length ≤ 7 ∧ ∀ ls, StacksUp env.toEnv t opts ls →
    (∀ l ∈ ls, RoomToTryFor (scansOf t) (l.q, l.kg)) → (((∃ c ∈ out, StackedFrom env.toEnv t opts ls c) ∨
    ∃ better : List Context, better.Subperm out ∧ better.length = 40 ∧ ∀ r ∈ better,
      (∃ ls', StackedFrom env.toEnv t opts ls' r ∧ SameLastKey ls' ls) ∧
      ∀ c, StackedFrom env.toEnv t opts ls c → RanksBefore r c) ∨
    Dropped env t opts pms ls out) ∨
    (out.length = 800 ∧ ((WeightsOk pms → ∀ c, StackedFrom env.toEnv t opts ls c →
      ∀ r ∈ out, c.relev ≤ r.relev) ∨ GoesBelow few ls)) := by
  obtain ⟨few, hf, hall⟩ := tree_full_open h hids hz hout
  exact ⟨few, hf, fun ls hs hroom => hall ls (hs.climbs hroom) hroom⟩

theorem weightsOk_of_positive {pms : List Subquery} (h : WeightsPositive pms) : WeightsOk pms :=
  fun q hq => ⟨(h q hq).1, (h q hq).2.1, (h q hq).2.2.le⟩

/-- What becomes of them when the list of results is not full. -/
theorem tree_complete {env : TreeEnv} {sm : ℕ} {pms : List Subquery} {t : StackTree}
    {opts : MatchOpts} {out : List Context} (h : stackableWith sm pms = some t)
    (hids : IdsUnique pms) (hz : env.chk = true ∨ ZoomsAscend pms) (hroom : RoomToTryAll t)
    (hout : treeCoalesce env t opts = some out) (hlen : out.length < 800) {ls : List Level}
    (hs : StacksUp env.toEnv t opts ls) :
    ((∃ c ∈ out, StackedFrom env.toEnv t opts ls c) ∨
    ∃ better : List Context, better.Subperm out ∧ better.length = 40 ∧ ∀ r ∈ better,
      (∃ ls', StackedFrom env.toEnv t opts ls' r ∧ SameLastKey ls' ls) ∧
      ∀ c, StackedFrom env.toEnv t opts ls c → RanksBefore r c) ∨
    Dropped env t opts pms ls out := by
  obtain ⟨few, _, hall⟩ := tree_full h hids hz hout
  exact (hall ls hs fun l _ => RoomToTry.for hroom _).resolve_right fun hfull => by omega

/-- Where no scan is slow, nothing is given up. -/
theorem not_dropped {env : TreeEnv} {t : StackTree} {opts : MatchOpts} {pms : List Subquery}
    {ls : List Level} {cs : List Context} (hroom : RoomForAll t)
    (hs : StacksUp env.toEnv t opts ls) : ¬ Dropped env t opts pms ls cs := by
  rintro ⟨up, l, rfl, ⟨h1, h2, h3⟩, _⟩
  have hl := hs.answers l (by simp)
  have hmem : (l.q, l.kg) ∈ scansOf t := by
    have hpath := hs.path
    rw [List.map_append, List.map_singleton, treePath_append] at hpath
    obtain ⟨c, _, hc⟩ := hpath.2.1
    refine List.mem_flatMap.2 ⟨(l.node, true), ?_, ?_⟩
    · rw [List.mem_filter]
      exact ⟨List.mem_of_getElem? (Arena.get_eq_some.1 hc), rfl⟩
    · rw [hl.1]
      simpa using hl.2.1
  have := hroom.worth _ hmem h1 h2
  simp only at this h3
  omega

/-- C55: if fewer than 800 contexts are returned and no scan had to be left out, then for any grids
that stack up along a path of the tree the context is returned, unless there are forty others for
the same nodes and the same last match key that rank before it or tie with it. -/
theorem C55_complete {env : TreeEnv} {sm : ℕ} {pms : List Subquery} {t : StackTree}
    {opts : MatchOpts} {out : List Context} (h : stackableWith sm pms = some t)
    (hids : IdsUnique pms) (hz : env.chk = true ∨ ZoomsAscend pms) (hroom : RoomForAll t)
    (hout : treeCoalesce env t opts = some out) (hlen : out.length < 800) {ls : List Level}
    (hs : StacksUp env.toEnv t opts ls) :
    (∃ c ∈ out, StackedFrom env.toEnv t opts ls c) ∨
    ∃ better : List Context, better.Subperm out ∧ better.length = 40 ∧ ∀ r ∈ better,
      (∃ ls', StackedFrom env.toEnv t opts ls' r ∧ SameLastKey ls' ls) ∧
      ∀ c, StackedFrom env.toEnv t opts ls c → RanksBefore r c :=
  (tree_complete h hids hz hroom.toTry hout hlen hs).resolve_right (not_dropped hroom hs)

/-- C75: if fewer than 800 contexts are returned and the quotas are enough, then for any grids that
stack up along a path of the tree the context is returned, unless there are forty others for the
same nodes and the same last match key that rank before it or tie with it, or the last scan was
given up: then it was a wide one for one token at zoom 14 or more, with nothing below it, and
something is returned that has at least a third more relevance. -/
theorem C75_tree {env : TreeEnv} {sm : ℕ} {pms : List Subquery} {t : StackTree}
    {opts : MatchOpts} {out : List Context} (h : stackableWith sm pms = some t)
    (hids : IdsUnique pms) (hz : env.chk = true ∨ ZoomsAscend pms) (hw : WeightsPositive pms)
    (hroom : RoomToTryAll t)
    (hout : treeCoalesce env t opts = some out) (hlen : out.length < 800) {ls : List Level}
    (hs : StacksUp env.toEnv t opts ls) :
    (∃ c ∈ out, StackedFrom env.toEnv t opts ls c) ∨
    (∃ better : List Context, better.Subperm out ∧ better.length = 40 ∧ ∀ r ∈ better,
      (∃ ls', StackedFrom env.toEnv t opts ls' r ∧ SameLastKey ls' ls) ∧
      ∀ c, StackedFrom env.toEnv t opts ls c → RanksBefore r c) ∨
    GivenUp env.toEnv t opts ls out := by
  rcases tree_complete h hids hz hroom hout hlen hs with (h | h) | ⟨up, l, h1, h2, h3, h4⟩
  · exact Or.inl h
  · exact Or.inr (Or.inl h)
  · exact Or.inr (Or.inr ⟨up, l, h1, h2, h3, h4 hw⟩)

/-- C78: if every quota that the scans for some grids that stack up along a path of the tree count
against is enough, then the context is returned, unless there are forty others for the same nodes
and the same last match key that rank before it or tie with it, or the last scan was given up, or
800 contexts are returned, all with at least the relevance; or 800 contexts are returned and the
stack goes on below one of seven nodes. Quotas that none of the scans count against may be spent. -/
theorem C78_tree {env : TreeEnv} {sm : ℕ} {pms : List Subquery} {t : StackTree}
    {opts : MatchOpts} {out : List Context} (h : stackableWith sm pms = some t)
    (hids : IdsUnique pms) (hz : env.chk = true ∨ ZoomsAscend pms) (hw : WeightsPositive pms)
    (hout : treeCoalesce env t opts = some out) :
    ∃ few : List StackNode, few.length ≤ 7 ∧ ∀ ls, StacksUp env.toEnv t opts ls →
    (∀ l ∈ ls, RoomToTryFor (scansOf t) (l.q, l.kg)) →
    (∃ c ∈ out, StackedFrom env.toEnv t opts ls c) ∨
    (∃ better : List Context, better.Subperm out ∧ better.length = 40 ∧ ∀ r ∈ better,
      (∃ ls', StackedFrom env.toEnv t opts ls' r ∧ SameLastKey ls' ls) ∧
      ∀ c, StackedFrom env.toEnv t opts ls c → RanksBefore r c) ∨
    GivenUp env.toEnv t opts ls out ∨
    (out.length = 800 ∧ ((∀ c, StackedFrom env.toEnv t opts ls c → ∀ r ∈ out, c.relev ≤ r.relev) ∨
      GoesBelow few ls)) := by
  obtain ⟨few, hfew, hall⟩ := tree_full h hids hz hout
  refine ⟨few, hfew, fun ls hs hroom => ?_⟩
  rcases hall ls hs hroom with ((h | h) | ⟨up, l, h1, h2, h3, h4⟩) | ⟨h1, h2⟩
  · exact Or.inl h
  · exact Or.inr (Or.inl h)
  · exact Or.inr (Or.inr (Or.inl ⟨up, l, h1, h2, h3, h4 hw⟩))
  · exact Or.inr (Or.inr (Or.inr ⟨h1, h2.imp (fun h => h (weightsOk_of_positive hw)) id⟩))

/-- C76: if the quotas are enough, then for any grids that stack up along a path of the tree the context
is returned, also if the list of results is full, unless there are forty others for the same nodes
and the same last match key that rank before it or tie with it, or the last scan was given up, or
800 contexts are returned, all with at least the relevance; or 800 contexts are returned and the
stack goes on below one of seven nodes. -/
theorem C76_tree {env : TreeEnv} {sm : ℕ} {pms : List Subquery} {t : StackTree}
    {opts : MatchOpts} {out : List Context} (h : stackableWith sm pms = some t)
    (hids : IdsUnique pms) (hz : env.chk = true ∨ ZoomsAscend pms) (hw : WeightsPositive pms)
    (hroom : RoomToTryAll t) (hout : treeCoalesce env t opts = some out) :
    ∃ few : List StackNode, few.length ≤ 7 ∧ ∀ ls, StacksUp env.toEnv t opts ls →
    (∃ c ∈ out, StackedFrom env.toEnv t opts ls c) ∨
    (∃ better : List Context, better.Subperm out ∧ better.length = 40 ∧ ∀ r ∈ better,
      (∃ ls', StackedFrom env.toEnv t opts ls' r ∧ SameLastKey ls' ls) ∧
      ∀ c, StackedFrom env.toEnv t opts ls c → RanksBefore r c) ∨
    GivenUp env.toEnv t opts ls out ∨
    (out.length = 800 ∧ ((∀ c, StackedFrom env.toEnv t opts ls c → ∀ r ∈ out, c.relev ≤ r.relev) ∨
      GoesBelow few ls)) := by
  obtain ⟨few, hfew, hall⟩ := C78_tree h hids hz hw hout
  exact ⟨few, hfew, fun ls hs => hall ls hs fun l _ => RoomToTry.for hroom _⟩

/-! ## A case -/

/-- Few scans at low zooms are never left out. -/
theorem room_of_few {t : StackTree} (h : (scansOf t).length ≤ 8)
    (hz : ∀ s ∈ scansOf t, s.1.store.zoom < 14) : RoomForAll t := by
  have : ∀ n, 8 ≤ n → ∀ p, AtMost n p (scansOf t) := fun n hn p s hs _ =>
    hs.length_le.trans (h.trans hn)
  exact ⟨fun s hs _ _ => hz s hs, this 8 (by omega) _, this 40 (by omega) _, this 40 (by omega) _,
    this 600 (by omega) _⟩

/-- Node `i` of a tree with its first match key and result `n` for it. -/
def levelAt (t : StackTree) (i n : ℕ) : Option Level := do
  let node ← t.arena.get i
  let q ← node.pm
  let kg ← q.matchKeys.head?
  let o ← lookupOpts (listTreeEnv false).toEnv plainOpts q kg
  let grids ← (listTreeEnv false).query q.store kg.key o 100000
  let g ← grids[n]?
  some ⟨node, q, kg, g⟩

theorem levelAt_answer {t : StackTree} {i n : ℕ} {l : Level} (h : levelAt t i n = some l)
    (hn : n < 100000) (hd : ((lookupOpts (listTreeEnv false).toEnv plainOpts l.q l.kg).bind fun o =>
      ((listTreeEnv false).query l.q.store l.kg.key o 100000).map fun grids =>
        (grids.take n).all fun g => !decide (g.entry.x = l.grid.entry.x ∧
          g.entry.y = l.grid.entry.y ∧ g.entry.id = l.grid.entry.id)) = some true) :
    t.arena.get i = some l.node ∧ l.FirstAnswer (listTreeEnv false).toEnv plainOpts := by
  unfold levelAt at h
  simp only [Option.bind_eq_bind, Option.bind_eq_some_iff] at h
  obtain ⟨node, h1, q, h2, kg, h3, o, h4, grids, h5, g, h6, h⟩ := h
  cases h
  refine ⟨h1, h2, List.mem_of_mem_head? h3, o, grids.take n, grids.drop (n + 1), h4, ?_, ?_, ?_⟩
  · have hlt := (List.getElem?_eq_some_iff.1 h6)
    obtain ⟨hlt, rfl⟩ := hlt
    rw [h5, ← List.drop_eq_getElem_cons, List.take_append_drop]
  · rw [List.length_take]
    omega
  · simp only at hd
    rw [h4, Option.bind_some, h5, Option.map_some, Option.some.injEq, List.all_eq_true] at hd
    intro g' hg' hx
    have := hd g' hg'
    simp only [Bool.not_eq_true', decide_eq_false_iff_not] at this
    exact this hx

/-- Two phrase matches with a scan of several phrases each. -/
def widePms : List Subquery :=
  [{ regionTreeMatch with matchKeys := [⟨⟨.range 1 9, 1⟩, false, 0, 1⟩] },
   { streetTreeMatch with matchKeys := [⟨⟨.range 1 9, 1⟩, false, 1, 1⟩] }]

/-- A street in a region stacks up, and there is room: the hypotheses of C55. -/
example : ∃ t out ls, stackable widePms = some t ∧ IdsUnique widePms ∧ ZoomsAscend widePms ∧
    RoomForAll t ∧ (∃ s ∈ scansOf t, WideScan s ∧ CoversOne s) ∧
    treeCoalesce (listTreeEnv false) t plainOpts = some out ∧
    out.length < 800 ∧ StacksUp (listTreeEnv false).toEnv t plainOpts ls ∧ ls.length = 2 := by
  have hids : IdsUnique widePms := by
    unfold IdsUnique
    decide +kernel
  have hz : ZoomsAscend widePms := by
    unfold ZoomsAscend
    decide +kernel
  have hev : ((stackable widePms).bind fun t => (treeCoalesce (listTreeEnv false) t plainOpts).bind
      fun out => (levelAt t 1 0).bind fun a => (levelAt t 0 0).map fun b =>
        decide (out.length < 800) && decide ((scansOf t).length ≤ 8) &&
        ((scansOf t).all fun s => decide (s.1.store.zoom < 14)) &&
        ((scansOf t).any fun s => decide (s.2.key.phrase = .range 1 9 ∧ s.1.mask = 1)) &&
        decide (1 ∈ t.root.children ∧ 0 ∈ a.node.children) &&
        (a.q.store.bboxes.any fun bb => decide (bb.minX ≤ a.grid.entry.x ∧
          a.grid.entry.x ≤ bb.maxX ∧ bb.minY ≤ a.grid.entry.y ∧ a.grid.entry.y ≤ bb.maxY)) &&
        (b.q.store.bboxes.any fun bb => decide (bb.minX ≤ b.grid.entry.x ∧
          b.grid.entry.x ≤ bb.maxX ∧ bb.minY ≤ b.grid.entry.y ∧ b.grid.entry.y ≤ bb.maxY)) &&
        decide (a.tile.1 ≤ b.tile.1 ∧ a.tile.2.1 = b.tile.2.1 / 2 ^ (b.tile.1 - a.tile.1) ∧
          a.tile.2.2 = b.tile.2.2 / 2 ^ (b.tile.1 - a.tile.1)) &&
        (((lookupOpts (listTreeEnv false).toEnv plainOpts a.q a.kg).bind fun o =>
          ((listTreeEnv false).query a.q.store a.kg.key o 100000).map fun _ => true) ==
            some true) &&
        (((lookupOpts (listTreeEnv false).toEnv plainOpts b.q b.kg).bind fun o =>
          ((listTreeEnv false).query b.q.store b.kg.key o 100000).map fun _ => true) ==
            some true)) = some true := by decide +kernel
  obtain ⟨t, ht, hev⟩ := Option.bind_eq_some_iff.1 hev
  obtain ⟨out, hout, hev⟩ := Option.bind_eq_some_iff.1 hev
  obtain ⟨a, ha, hev⟩ := Option.bind_eq_some_iff.1 hev
  obtain ⟨b, hb, hev⟩ := Option.map_eq_some_iff.1 hev
  simp only [Bool.and_eq_true, decide_eq_true_eq, List.all_eq_true, beq_iff_eq,
    List.any_eq_true] at hev
  obtain ⟨⟨⟨⟨⟨⟨⟨⟨⟨e1, e2⟩, e3⟩, e4⟩, e5⟩, e6⟩, e7⟩, e8⟩, e9⟩, e10⟩ := hev
  obtain ⟨a1, a2⟩ := levelAt_answer ha (by omega) (by simpa using e9)
  obtain ⟨b1, b2⟩ := levelAt_answer hb (by omega) (by simpa using e10)
  obtain ⟨s, e4, e4p, e4m⟩ := e4
  refine ⟨t, out, [a, b], ht, hids, hz, room_of_few e2 e3, ⟨s, e4, ⟨1, 9, e4p, by omega⟩, 0,
    by omega, ?_⟩, hout, e1, ⟨by simp, ?_, ⟨⟨1, e5.1, a1⟩, ⟨0, e5.2, b1⟩, trivial⟩, ?_, ?_, ?_⟩, rfl⟩
  · rw [e4m]
    decide +kernel
  · rintro ⟨l, h, _⟩
    have := congrArg List.length h
    simp at this
  · intro l hl
    rcases List.mem_cons.1 hl with rfl | hl
    · exact a2
    · rw [List.mem_singleton.1 hl]
      exact b2
  · intro l hl
    rcases List.mem_cons.1 hl with rfl | hl
    · exact e6
    · rw [List.mem_singleton.1 hl]
      exact e7
  · rw [List.isChain_cons_cons]
    exact ⟨e8, List.isChain_singleton _⟩

/-! ## The bounding boxes have to be right -/

/-- A street index with a bounding box that leaves out its street. -/
def boxedPms : List Subquery :=
  [regionTreeMatch,
   { streetTreeMatch with
     store := { streetTreeMatch.store with bboxes := [⟨100, 100, 101, 101⟩] } }]

/-- If a bounding box does not cover the tile, the stack is missed, with all other conditions of
C55 met. -/
theorem C55_boxes_needed : ∃ t out ls, stackable boxedPms = some t ∧ IdsUnique boxedPms ∧
    ZoomsAscend boxedPms ∧ RoomForAll t ∧
    treeCoalesce (listTreeEnv false) t plainOpts = some out ∧ out.length < 40 ∧
    ls ≠ [] ∧ ¬ Alone ls ∧ TreePath t t.root (ls.map Level.node) ∧
    (∀ l ∈ ls, l.FirstAnswer (listTreeEnv false).toEnv plainOpts) ∧
    (ls.IsChain fun a b => TileContains a.tile b.tile) ∧
    ∀ c ∈ out, ¬ StackedFrom (listTreeEnv false).toEnv t plainOpts ls c := by
  have hids : IdsUnique boxedPms := by
    unfold IdsUnique
    decide +kernel
  have hz : ZoomsAscend boxedPms := by
    unfold ZoomsAscend
    decide +kernel
  have hev : ((stackable boxedPms).bind fun t => (treeCoalesce (listTreeEnv false) t plainOpts).bind
      fun out => (levelAt t 1 0).bind fun a => (levelAt t 0 0).map fun b =>
        decide (out.length < 40) && decide ((scansOf t).length ≤ 8) &&
        ((scansOf t).all fun s => decide (s.1.store.zoom < 14)) &&
        (out.all fun c => decide (c.entries.length = 1)) &&
        decide (1 ∈ t.root.children ∧ 0 ∈ a.node.children) &&
        decide (a.tile.1 ≤ b.tile.1 ∧ a.tile.2.1 = b.tile.2.1 / 2 ^ (b.tile.1 - a.tile.1) ∧
          a.tile.2.2 = b.tile.2.2 / 2 ^ (b.tile.1 - a.tile.1)) &&
        (((lookupOpts (listTreeEnv false).toEnv plainOpts a.q a.kg).bind fun o =>
          ((listTreeEnv false).query a.q.store a.kg.key o 100000).map fun _ => true) ==
            some true) &&
        (((lookupOpts (listTreeEnv false).toEnv plainOpts b.q b.kg).bind fun o =>
          ((listTreeEnv false).query b.q.store b.kg.key o 100000).map fun _ => true) ==
            some true)) = some true := by decide +kernel
  obtain ⟨t, ht, hev⟩ := Option.bind_eq_some_iff.1 hev
  obtain ⟨out, hout, hev⟩ := Option.bind_eq_some_iff.1 hev
  obtain ⟨a, ha, hev⟩ := Option.bind_eq_some_iff.1 hev
  obtain ⟨b, hb, hev⟩ := Option.map_eq_some_iff.1 hev
  simp only [Bool.and_eq_true, decide_eq_true_eq, List.all_eq_true, beq_iff_eq] at hev
  obtain ⟨⟨⟨⟨⟨⟨⟨e1, e2⟩, e3⟩, e4⟩, e5⟩, e8⟩, e9⟩, e10⟩ := hev
  obtain ⟨a1, a2⟩ := levelAt_answer ha (by omega) (by simpa using e9)
  obtain ⟨b1, b2⟩ := levelAt_answer hb (by omega) (by simpa using e10)
  refine ⟨t, out, [a, b], ht, hids, hz, room_of_few e2 e3, hout, e1, by simp, ?_,
    ⟨⟨1, e5.1, a1⟩, ⟨0, e5.2, b1⟩, trivial⟩, ?_, ?_, ?_⟩
  · rintro ⟨l, h, _⟩
    have := congrArg List.length h
    simp at this
  · intro l hl
    rcases List.mem_cons.1 hl with rfl | hl
    · exact a2
    · rw [List.mem_singleton.1 hl]
      exact b2
  · rw [List.isChain_cons_cons]
    exact ⟨e8, List.isChain_singleton _⟩
  · intro c hc h
    have h1 := h.entries.length_eq
    rw [e4 c hc] at h1
    simp at h1

end Carmen
