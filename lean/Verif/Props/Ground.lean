import Verif.Lemmas.Ground
import Verif.Lemmas.Regroup
import Verif.Props.ResultRanges

/-!
# C85: a search keeps to its box and measures from its point
-/

namespace Carmen
open Spec

/-! ## Queries -/

/-- **C85**: whatever is in the database, a query with a box returns only tiles in it; distances are
measured from the proximity point, and without one they are 0 and the score counts alone. -/
theorem C85_query {M : KMerger} {H : Heap QueueElement.key} {chk : Bool} {s : Store}
    {mk : MatchKey} {opts : MatchOpts} {n : ℕ} {out : List MatchEntry}
    (h : s.getMatching M H chk mk opts n = some out) : ∀ r ∈ out,
      (∀ b, opts.bbox = some b → b.minX ≤ r.entry.x ∧ r.entry.x ≤ b.maxX ∧ b.minY ≤ r.entry.y ∧
        r.entry.y ≤ b.maxY) ∧
      (∀ p, opts.proximity = some p → r.distance = tileDist p.1 p.2 r.entry.x r.entry.y ∧
        r.scoredist = scoredist opts.zoom r.distance r.entry.score s.radius) ∧
      (opts.proximity = none → r.distance = 0 ∧ r.scoredist = F64.ofNat r.entry.score) := by
  intro r hr
  have hm := getMatching_mem h r hr
  exact ⟨getMatching_boxKept h r hr, fun p hp => hm.measured hp, fun hp =>
    ⟨(hm.no_proximity hp).2.1, (hm.no_proximity hp).1⟩⟩

example : (streetStore.getMatching listMerger (listHeap _) true ⟨.exact 2, 1⟩
    ⟨some ⟨4, 8, 6, 10⟩, some (5, 9), 8⟩ 10).map (List.map fun r => (r.entry.id, r.distance)) =
    some [(7, 0)] := by decide +kernel

/-! ## The box at another zoom -/

theorem tile_unique {z : ℕ} {t t' : ℕ × ℕ} {u v : ℚ} (h : InTile z t u v) (h' : InTile z t' u v) :
    t = t' := by
  obtain ⟨a1, a2, a3, a4⟩ := h
  obtain ⟨b1, b2, b3, b4⟩ := h'
  have e1 : t.1 < t'.1 + 1 := by exact_mod_cast a1.trans_lt b2
  have e2 : t'.1 < t.1 + 1 := by exact_mod_cast b1.trans_lt a2
  have e3 : t.2 < t'.2 + 1 := by exact_mod_cast a3.trans_lt b4
  have e4 : t'.2 < t.2 + 1 := by exact_mod_cast b3.trans_lt a4
  exact Prod.ext (by omega) (by omega)

theorem tileInBox_of_point {z : ℕ} {b : BBox} {t : ℕ × ℕ} {u v : ℚ} (ht : InTile z t u v)
    (hb : InArea z b u v) : TileInBox b t := by
  obtain ⟨a1, a2, a3, a4⟩ := ht
  obtain ⟨b1, b2, b3, b4⟩ := hb
  have e1 : b.minX < t.1 + 1 := by exact_mod_cast b1.trans_lt a2
  have e2 : t.1 < b.maxX + 1 := by exact_mod_cast a1.trans_lt b2
  have e3 : b.minY < t.2 + 1 := by exact_mod_cast b3.trans_lt a4
  have e4 : t.2 < b.maxY + 1 := by exact_mod_cast a3.trans_lt b4
  exact ⟨by omega, by omega, by omega, by omega⟩

/-- Every point of a box lies in a tile. -/
theorem exists_tile {z : ℕ} {b : BBox} {u v : ℚ} (h : InArea z b u v) : ∃ t, InTile z t u v := by
  obtain ⟨b1, -, b3, -⟩ := h
  have h1 : (0 : ℚ) ≤ u * 2 ^ z := (Nat.cast_nonneg _).trans b1
  have h2 : (0 : ℚ) ≤ v * 2 ^ z := (Nat.cast_nonneg _).trans b3
  exact ⟨(⌊u * 2 ^ z⌋₊, ⌊v * 2 ^ z⌋₊), Nat.floor_le h1, Nat.lt_floor_add_one _, Nat.floor_le h2,
    Nat.lt_floor_add_one _⟩

/-- **C85**: at the zoom of an index the box of a request becomes the box of exactly the tiles that
have ground in common with it. -/
theorem C85_box_exact {opts : MatchOpts} {s : Store} {b : BBox} (hs : SoundOpts opts)
    (hz : ZoomFits opts s) (hb : opts.bbox = some b) :
    ∃ b', (opts.adjustToZoom s.zoom).bbox = some b' ∧
      ∀ x y, (b'.minX ≤ x ∧ x ≤ b'.maxX ∧ b'.minY ≤ y ∧ y ≤ b'.maxY) ↔
        Touches s.zoom (x, y) opts.zoom b := by
  have hsome : ∃ b', (opts.adjustToZoom s.zoom).bbox = some b' := by
    unfold MatchOpts.adjustToZoom
    split_ifs
    · exact ⟨b, hb⟩
    · rw [hb]
      exact ⟨_, rfl⟩
  obtain ⟨b', hb'⟩ := hsome
  refine ⟨b', hb', fun x y => ⟨fun h => (adjusted_box hs hz (t := (x, y)) (fun b'' h'' => ?_) hb).1,
    ?_⟩⟩
  · rw [hb'] at h''
    cases h''
    exact h
  rintro ⟨u, v, ht, hbx⟩
  change TileInBox b' (x, y)
  obtain ⟨hz1, hz2, hz3⟩ := hz
  by_cases hle : opts.zoom ≤ s.zoom
  · obtain ⟨n, hn⟩ := Nat.exists_eq_add_of_le hle
    rw [hn] at hb' ht
    obtain ⟨b'', h1, -, hall⟩ := C26_box_in (o := opts) (n := n) (by omega) (by omega) hb
      (hs.optsAt.2 b hb)
    rw [hb'] at h1
    cases h1
    exact (hall _).2 (tileInBox_of_point (inTile_ancestor ht) hbx)
  · obtain ⟨n, hn⟩ := Nat.exists_eq_add_of_le (Nat.le_of_not_le hle)
    obtain ⟨b'', h1, -, hall, -⟩ := C26_box_out (o := opts) (z := s.zoom) (n := n) hn (by omega)
      (by omega) hb
    rw [hb'] at h1
    cases h1
    obtain ⟨t', ht'⟩ := exists_tile hbx
    have h3 := hall t' (tileInBox_of_point ht' hbx)
    rw [hn] at ht'
    rwa [tile_unique (inTile_ancestor ht') ht] at h3

/-- A box of one tile at zoom 6 is one of sixteen tiles at zoom 8, and of one at zoom 4. -/
example : SoundOpts ⟨some ⟨1, 2, 1, 2⟩, some (1, 2), 6⟩ ∧
    ZoomFits ⟨some ⟨1, 2, 1, 2⟩, some (1, 2), 6⟩ streetTreeStore ∧
    MatchOpts.adjustToZoom ⟨some ⟨1, 2, 1, 2⟩, some (1, 2), 6⟩ 8 =
      ⟨some ⟨4, 8, 7, 11⟩, some (5, 9), 8⟩ ∧
    MatchOpts.adjustToZoom ⟨some ⟨1, 2, 1, 2⟩, some (1, 2), 6⟩ 4 =
      ⟨some ⟨0, 0, 0, 0⟩, some (0, 0), 4⟩ := by
  refine ⟨⟨by decide, ?_, ?_⟩, by unfold ZoomFits; decide, by decide, by decide⟩
  · rintro p ⟨⟩
    decide
  · rintro b ⟨⟩
    decide

/-! ## From queries to entries -/

/-- A query with the options of a lookup gives entries that keep to the request. -/
theorem keeps_of_query {env : Env} {opts o : MatchOpts} {q : Subquery} {kg : KeyWithId}
    (hs : SoundOpts opts) (hz : ZoomFits opts q.store) (ho : lookupOpts env opts q kg = some o)
    {key : MatchKey} {n : ℕ} {grids : List MatchEntry}
    (hg : env.query q.store key o n = some grids) {g : MatchEntry} (hm : g ∈ grids)
    {q' : Subquery} {e : CoalesceEntry} (he : MadeFrom q' g e) : KeepsTo opts q.store e ∧
      (kg.nearbyOnly = true → NearPoint (nearbyTiles q.store.zoom) opts q.store e) := by
  obtain ⟨-, e1, e2, e3, -, -, -, e4, e5, -⟩ := he
  obtain ⟨h1, h2, h3⟩ := lookup_keeps hs hz ho
  have hq := getMatching_mem hg g hm
  have hb := getMatching_boxKept hg g hm
  obtain ⟨f1, f2⟩ := h3 _ hb
  refine ⟨⟨fun b hb' => ?_, fun b hb' => ?_, fun p hp => ?_, fun hp => ?_⟩, fun hn p hp => ?_⟩
  · rw [e1, e2]
    exact (adjusted_box hs hz f1 hb').1
  · rw [e1, e2]
    exact (adjusted_box hs hz f1 hb').2
  · rw [e1, e2, e3, e4, e5]
    obtain ⟨a1, a2⟩ := hq.measured (h2.trans (adjusted_point hs hz hp))
    rw [h1] at a2
    exact ⟨a1, a2⟩
  · have hp' : o.proximity = none := by
      rw [h2]
      unfold MatchOpts.adjustToZoom
      split_ifs
      · exact hp
      · rw [hp]; rfl
    rw [e3, e4, e5]
    exact ⟨(hq.no_proximity hp').2.1, (hq.no_proximity hp').1⟩
  · rw [e1, e2]
    exact f2 hn p hp

/-! ## `coalesce` -/

/-- With debug assertions on, `coalesce` of one phrase match returns something only if the zoom of
the request is the zoom of the index. -/
theorem single_zoom {env : Env} (hc : env.chk = true) {o : IterOrder} {q : Subquery}
    {opts : MatchOpts} {out : List Context} (h : coalesceSingle env o q opts = some out)
    (hne : out ≠ []) : opts.zoom = q.store.zoom := by
  unfold coalesceSingle at h
  simp only [Option.bind_eq_bind, Option.bind_eq_some_iff] at h
  obtain ⟨m, hm, h⟩ := h
  cases h
  unfold singleFeatures at hm
  simp only [Option.bind_eq_bind, Option.bind_eq_some_iff] at hm
  obtain ⟨k, -, grids, -, s, hs, hm⟩ := hm
  cases hm
  cases grids with
  | nil =>
    unfold singleLoop at hs
    cases hs
    refine absurd ?_ hne
    have : o.run SingleState.init.coalesced = [] :=
      List.Perm.eq_nil (o.perm _)
    rw [this]
    rfl
  | cons g t =>
    unfold singleLoop at hs
    simp only [Option.bind_eq_bind, Option.bind_eq_some_iff] at hs
    obtain ⟨e, he, -⟩ := hs
    unfold mkEntry at he
    by_contra hz
    rw [hc, decide_eq_true hz] at he
    cases he

/-- **C85**: every entry `coalesce` returns keeps to the box of the request and is measured from its
point. A single phrase match must be at the zoom of the request, or debug assertions be on. -/
theorem C85_coalesce (env : Env) (os : ℕ → IterOrder) (stack : List Subquery) (opts : MatchOpts)
    (hs : SoundOpts opts) (hz : ∀ q ∈ stack, ZoomFits opts q.store)
    (hone : env.chk = true ∨ stack.length ≠ 1 ∨ ∀ q ∈ stack, opts.zoom = q.store.zoom)
    (out : List Context) (h : coalesce env os stack opts = some out) :
    ∀ c ∈ out, ∀ e ∈ c.entries, ∃ q ∈ stack, e.idx = q.idx ∧ e.mask = q.mask ∧
      KeepsTo opts q.store e := by
  intro c hc e he
  obtain ⟨q, hq, g, hg, hm, -⟩ := (C39_any_stack env os stack opts out h c hc).2.1 e he
  refine ⟨q, hq, hm.2.2.2.2.2.2.2.2.2.2.1, hm.2.2.2.2.2.2.2.2.2.2.2, ?_⟩
  have key : ∀ o k n grids, env.adjust opts q.store.zoom = some o →
      env.query q.store k o n = some grids → g ∈ grids → KeepsTo opts q.store e := by
    intro o k n grids h1 h2 h3
    have hl : lookupOpts env opts q ⟨k, false, 0, 0⟩ = some o := by
      unfold lookupOpts
      rw [h1]
      rfl
    exact (keeps_of_query hs (hz q hq) hl h2 h3 hm).1
  unfold AnswersIn at hg
  split_ifs at hg with hlen
  · have hzoom : opts.zoom = q.store.zoom := by
      rcases hone with hchk | h1 | h1
      · obtain ⟨q', rfl⟩ := List.length_eq_one_iff.1 hlen
        cases List.mem_singleton.1 hq
        unfold coalesce at h
        rw [Option.bind_eq_bind, Option.bind_eq_some_iff] at h
        obtain ⟨cs, hcs, h⟩ := h
        unfold allContexts at hcs
        rw [if_pos (by simp)] at hcs
        refine single_zoom hchk hcs ?_
        rintro rfl
        cases h
        cases hc
      · exact absurd hlen h1
      · exact h1 q hq
    obtain ⟨k, grids, -, h2, h3⟩ := hg
    have ha : env.adjust opts q.store.zoom = some opts := by
      unfold Env.adjust MatchOpts.adjustToZoomChecked MatchOpts.adjustToZoom
      rw [if_pos hzoom, if_pos hzoom]
      split_ifs <;> rfl
    exact key opts k.key 80 grids ha h2 h3
  · obtain ⟨o, k, grids, h1, -, h2, h3⟩ := hg
    exact key o k.key _ grids h1 h2 h3

/-- A region and a street in it, with a box of one tile at zoom 6: the street outside is left out. -/
example : (∀ q ∈ [regionMatch, streetMatch], ZoomFits ⟨some ⟨1, 2, 1, 2⟩, some (1, 2), 6⟩ q.store) ∧
    (coalesce listEnv (fun _ => .id) [regionMatch, streetMatch]
      ⟨some ⟨1, 2, 1, 2⟩, some (1, 2), 6⟩).map (fun cs => cs.map fun c =>
        c.entries.map fun e => (e.idx, e.entry.id)) = some [[(1, 7), (0, 3)]] := by
  constructor
  · unfold ZoomFits
    decide +kernel
  · decide +kernel

/-- Without debug assertions the zoom must be right: a box at zoom 8 round the tile (1, 2) is taken for
the tile (1, 2) of the index's zoom 6, which is nowhere near. -/
theorem C85_single_zoom : ∃ out, SoundOpts ⟨some ⟨1, 2, 1, 2⟩, none, 8⟩ ∧
    ZoomFits ⟨some ⟨1, 2, 1, 2⟩, none, 8⟩ regionMatch.store ∧
    coalesce listEnv (fun _ => .id) [regionMatch] ⟨some ⟨1, 2, 1, 2⟩, none, 8⟩ = some out ∧
    ∃ c ∈ out, ∃ e ∈ c.entries, e.idx = regionMatch.idx ∧
      ¬ KeepsTo ⟨some ⟨1, 2, 1, 2⟩, none, 8⟩ regionMatch.store e := by
  have hk : ((coalesce listEnv (fun _ => .id) [regionMatch] ⟨some ⟨1, 2, 1, 2⟩, none, 8⟩).any
      fun out => out.any fun c => c.entries.any fun e => decide (e.idx = regionMatch.idx ∧
        e.entry.x = 1 ∧ e.entry.y = 2)) = true := by decide +kernel
  obtain ⟨out, h1, hk⟩ := (Option.any_eq_true _ _).1 hk
  obtain ⟨c, hc, hk⟩ := List.any_eq_true.1 hk
  obtain ⟨e, he, hk⟩ := List.any_eq_true.1 hk
  obtain ⟨h2, h3, h4⟩ := of_decide_eq_true hk
  refine ⟨out, ⟨by decide, by rintro p ⟨⟩, ?_⟩, by unfold ZoomFits; decide, h1, c, hc, e, he, h2, fun hk => ?_⟩
  · rintro b ⟨⟩
    decide
  · obtain ⟨u, v, ⟨t1, -⟩, -, t2, -⟩ := hk.touches _ rfl
    rw [h3] at t1
    have e6 : regionMatch.store.zoom = 6 := rfl
    rw [e6] at t1
    norm_num at t1 t2
    linarith

/-! ## `stack_and_coalesce` -/

/-- **C85**: every entry `stack_and_coalesce` returns keeps to the box of the request and is measured
from its point, and lies near that point if the match key asks for it. -/
theorem C85_search {env : TreeEnv} {qs : List Subquery} {opts : MatchOpts} {out : List Context}
    (hd : Delivered qs) (hs : SoundOpts opts) (hz : ∀ q ∈ qs, ZoomFits opts q.store)
    (h : stackAndCoalesce env qs opts = some out) :
    ∀ c ∈ out, ∀ e ∈ c.entries, ∃ q ∈ qs, ∃ k, q.matchKeys = [k] ∧ e.phrasematchId = k.id ∧
      e.idx = q.idx ∧ e.mask = q.mask ∧ KeepsTo opts q.store e ∧
      (k.nearbyOnly = true → NearPoint (nearbyTiles q.store.zoom) opts q.store e) := by
  unfold stackAndCoalesce at h
  simp only [Option.bind_eq_bind, Option.bind_eq_some_iff] at h
  obtain ⟨pms, hcol, t, hst, h⟩ := h
  obtain ⟨rep, orig, grp, hr⟩ := collapse_regroups hd hcol
  intro c hcm e he
  obtain ⟨ls, hls⟩ := C41_any_request (sm := leafSoftMax) hst h c hcm
  obtain ⟨limit, hl1, hl2⟩ : ∃ limit, (Alone ls → limit = 80) ∧ (¬ Alone ls → limit = 100000) := by
    by_cases ha : Alone ls
    · exact ⟨80, fun _ => rfl, fun h => absurd ha h⟩
    · exact ⟨100000, fun h => absurd h ha, fun _ => rfl⟩
  have hans := fun l hl => hls.answers l hl limit hl1 hl2
  have hpm : ∀ l ∈ ls, l.q ∈ pms := fun l hl =>
    (path_types hst hls.path).1 l.node (List.mem_map_of_mem hl) l.q (hans l hl).1
  obtain ⟨l, hl, hm, hp⟩ := forall₂_mem_right hls.entries he
  rw [List.mem_reverse] at hl
  obtain ⟨-, hk, q, hq, kg, hkg, hid, o, grids, ho, hgrids, hg⟩ := hans l hl
  obtain ⟨i1, -, i3⟩ := hr.idsUnique hd q hq l.q (hpm l hl) kg hkg l.kg hk hid
  obtain ⟨o1, o2, o3⟩ := hr.orig_mem l.q (hpm l hl) l.kg hk
  have hst' : (orig l.q l.kg).store = q.store := (store_of_bare o2).trans i1.symm
  have hidx : (orig l.q l.kg).groupKey = l.q.groupKey := groupKey_of_bare o2
  have hzq : ZoomFits opts q.store := hst' ▸ hz _ o1
  obtain ⟨k1, k2⟩ := keeps_of_query hs hzq ho hgrids hg hm
  refine ⟨orig l.q l.kg, o1, l.kg, o3, hp, ?_, ?_, hst' ▸ k1, fun hn => ?_⟩
  · rw [hm.2.2.2.2.2.2.2.2.2.2.1]
    exact (congrArg (fun k => k.2.1) hidx).symm
  · rw [hm.2.2.2.2.2.2.2.2.2.2.2]
    exact (congrArg (fun k => k.2.2) hidx).symm
  · rw [hst']
    exact k2 (i3.trans hn)

/-- A region and a street of which only grids near the point are wanted. -/
example : Delivered [regionTreeMatch, { streetTreeMatch with
      matchKeys := [⟨⟨.exact 2, 1⟩, true, 1, 5⟩] }] ∧
    ((stackAndCoalesce (listTreeEnv false) [regionTreeMatch, { streetTreeMatch with
      matchKeys := [⟨⟨.exact 2, 1⟩, true, 1, 5⟩] }] ⟨none, some (1, 2), 6⟩).map
        fun cs => cs.map fun c => c.entries.map fun e => (e.idx, e.entry.id)) =
      some [[(1, 7), (0, 3)], [(1, 7), (0, 4)], [(1, 7)], [(0, 3)], [(0, 4)]] :=
  ⟨⟨by decide +kernel, by decide +kernel, by decide +kernel⟩, by decide +kernel⟩

end Carmen
