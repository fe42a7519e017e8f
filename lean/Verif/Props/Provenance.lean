import Verif.Lemmas.Provenance
import Verif.Model.Tools
import Verif.Props.Exact
import Verif.Props.Ground
import Verif.Props.FrameSearch

/-!
# C89: nothing is returned that was not written
-/

namespace Carmen
open Format Spec Builder

/-! ## Queries -/

theorem fetchPlan_asks {s : Store} {chk : Bool} {ph : MatchPhrase} {st en : ℕ} {m : TypeMarker}
    (h : s.fetchPlan chk ph = some (st, en, m)) : st = ph.start ∧
      (∀ p, st ≤ p → p < en → InPhrase ph p) ∧ (m = .prefixBin → FromBins s ph) := by
  cases ph with
  | exact a =>
    unfold Store.fetchPlan at h
    dsimp only at h
    split_ifs at h
    cases h
    refine ⟨rfl, fun p h1 h2 => ?_, fun h => by cases h⟩
    change p = st
    have := Nat.mod_le (st + 1) (2 ^ 32)
    omega
  | range a b =>
    unfold Store.fetchPlan at h
    dsimp only at h
    split_ifs at h with hb
    · cases h
      exact ⟨rfl, fun p h1 h2 => ⟨h1, h2⟩, fun _ => ⟨_, _, rfl, hb⟩⟩
    · cases h
      exact ⟨rfl, fun p h1 h2 => ⟨h1, h2⟩, fun h => by cases h⟩

/-- **C89**: whatever the options and the limit, and wherever the rows come from, every result of a
query was written, and under a phrase and languages the query asks for. -/
theorem C89_query {c : Content} {s : Store} (hc : StoreWith c s) {M : KMerger}
    {H : Heap QueueElement.key} {chk : Bool} {mk : MatchKey} (hst : mk.phrase.start < 2 ^ 32)
    {opts : MatchOpts} {n : ℕ} {out : List MatchEntry}
    (h : s.getMatching M H chk mk opts n = some out) : ∀ r ∈ out, Written c s mk r := by
  obtain ⟨o, ds, hd, hfin, hsmall, heff⟩ := hc
  obtain ⟨c', h1, hr⟩ := refines_new.runAll hd
  obtain rfl := C65_one_content h1 heff
  have hw := effects_entries h1 GridEntry.Wf (by simp) fun d hdd v hv => call_entries_wf (hd d hdd) v hv
  have hlaid := (Directory.finish hr.wf hfin).laidOut hsmall
  obtain ⟨rows, hrows, hall⟩ := getMatching_rows_from h
  intro r hrm
  obtain ⟨x, hx, ml, es, hml, hes, hre⟩ := hall r hrm
  obtain ⟨⟨st, en, m⟩, hp⟩ : ∃ p, s.fetchPlan chk mk.phrase = some p := by
    unfold Store.queryRows at hrows
    simp only [Option.bind_eq_bind, Option.bind_eq_some_iff] at hrows
    obtain ⟨p, hp, -⟩ := hrows
    exact ⟨p, hp⟩
  obtain ⟨e1, e2, e3⟩ := fetchPlan_asks hp
  rw [queryRows_eq hlaid rfl hp (by rw [e1]; exact hst)] at hrows
  cases hrows
  obtain ⟨hx1, hx2⟩ := List.mem_filter.1 hx
  rcases laid_row hlaid hx1 with ⟨m', k, v, rec, hk, rfl, hv, hsh⟩ | hbk
  · obtain ⟨rfl, h3, h4⟩ := (inRange_dbKey hk _).1 hx2
    rw [matchesLanguage_spec mk m' hk] at hml
    cases hml
    obtain ⟨e, he, ht⟩ := decodeMatching_tells hes hv.decodeValue r hre
    obtain ⟨k', es', w, g1, g2, g3, g4, rfl⟩ := row_written hr hw hfin hsmall hk hx1 hv.decodeValue e he
    refine ⟨k', es', w, g1, g2, fun hb => ?_, by rw [g3]; exact ht⟩
    cases m' with
    | singlePhrase => rw [g4 rfl]; exact e2 _ h3 h4
    | prefixBin => exact absurd (e3 rfl) hb
  · unfold inRange at hx2
    rw [hbk, matchesKey_bounds] at hx2
    simp at hx2

theorem frame_effects : Effects (fun _ => none) frameCalls (Content.run frameCalls) :=
  .cons rfl (.cons rfl (.cons rfl (.nil _)))

theorem frame_storeWith (zoom typeId : ℕ) (radius : F64) (bboxes : List BBox) (maxScore : F64) :
    StoreWith (Content.run frameCalls)
      (Store.openWith (leaves frameCalls) zoom typeId radius bboxes maxScore) := by
  obtain ⟨b, hb⟩ := frame_made
  exact ⟨.id, frameCalls, hb.wf, by
    change finish .id (runAll Builder.new frameCalls) = some (leaves frameCalls)
    decide +kernel, frame_small.1, frame_effects⟩

/-- A query answered from prefix bins. -/
example : ∃ out, (Store.openWith (leaves frameCalls) 6 0 0 [⟨0, 0, 63, 63⟩] 0).getMatching listMerger
      (listHeap _) true ⟨.range 5 9, 1⟩ ⟨none, none, 6⟩ 5 = some out ∧ out.length = 1 ∧
    FromBins (Store.openWith (leaves frameCalls) 6 0 0 [⟨0, 0, 63, 63⟩] 0) (.range 5 9) ∧
    ∀ r ∈ out, Written (Content.run frameCalls)
      (Store.openWith (leaves frameCalls) 6 0 0 [⟨0, 0, 63, 63⟩] 0) ⟨.range 5 9, 1⟩ r := by
  have h1 : ((Store.openWith (leaves frameCalls) 6 0 0 [⟨0, 0, 63, 63⟩] 0).getMatching listMerger
      (listHeap _) true ⟨.range 5 9, 1⟩ ⟨none, none, 6⟩ 5).map List.length = some 1 := by
    decide +kernel
  have h2 : 5 ∈ (Store.openWith (leaves frameCalls) 6 0 0 [⟨0, 0, 63, 63⟩] 0).bounds ∧
      9 ∈ (Store.openWith (leaves frameCalls) 6 0 0 [⟨0, 0, 63, 63⟩] 0).bounds := by decide +kernel
  obtain ⟨out, h3, h4⟩ := Option.map_eq_some_iff.1 h1
  exact ⟨out, h3, h4, ⟨5, 9, rfl, h2⟩, C89_query (frame_storeWith ..) (by decide) h3⟩

/-! ## `coalesce` -/

/-- **C89**: every entry of a context `coalesce` returns was written: it is the weighted report of an
entry of the index, under a phrase and languages the first match key of the phrase match asks for. -/
theorem C89_coalesce (env : Env) (os : ℕ → IterOrder) (stack : List Subquery) (opts : MatchOpts)
    (content : Subquery → Content) (hc : ∀ q ∈ stack, StoreWith (content q) q.store)
    (hst : ∀ q ∈ stack, ∀ k ∈ q.matchKeys, k.key.phrase.start < 2 ^ 32)
    (out : List Context) (h : coalesce env os stack opts = some out) :
    ∀ c ∈ out, ∀ e ∈ c.entries, ∃ q ∈ stack, ∃ k, q.matchKeys.head? = some k ∧ ∃ r,
      Written (content q) q.store k.key r ∧ MadeFrom q r e := by
  intro c hcm e he
  obtain ⟨q, hq, g, hg, hm, -⟩ := (C39_any_stack env os stack opts out h c hcm).2.1 e he
  have key : ∀ k o n grids, q.matchKeys.head? = some k → env.query q.store k.key o n = some grids →
      g ∈ grids → Written (content q) q.store k.key g := fun k o n grids h1 h2 h3 =>
    C89_query (hc q hq) (hst q hq k (List.mem_of_mem_head? h1)) h2 g h3
  unfold AnswersIn at hg
  split_ifs at hg with hlen
  · obtain ⟨k, grids, h1, h2, h3⟩ := hg
    exact ⟨q, hq, k, h1, g, key k _ _ grids h1 h2 h3, hm⟩
  · obtain ⟨o, k, grids, -, h1, h2, h3⟩ := hg
    exact ⟨q, hq, k, h1, g, key k _ _ grids h1 h2 h3, hm⟩

/-! ## `stack_and_coalesce` -/

/-- **C89**: every entry of a context `stack_and_coalesce` returns was written: it is the weighted
report of an entry of the index, under a phrase and languages its match key asks for. -/
theorem C89_search {env : TreeEnv} {qs : List Subquery} {opts : MatchOpts} {out : List Context}
    (hd : Delivered qs) (content : Subquery → Content)
    (hc : ∀ q ∈ qs, StoreWith (content q) q.store)
    (hst : ∀ q ∈ qs, ∀ k ∈ q.matchKeys, k.key.phrase.start < 2 ^ 32)
    (h : stackAndCoalesce env qs opts = some out) :
    ∀ c ∈ out, ∀ e ∈ c.entries, ∃ q ∈ qs, ∃ k, q.matchKeys = [k] ∧ e.phrasematchId = k.id ∧ ∃ r,
      Written (content q) q.store k.key r ∧ MadeFrom q r e := by
  unfold stackAndCoalesce at h
  simp only [Option.bind_eq_bind, Option.bind_eq_some_iff] at h
  obtain ⟨pms, hcol, t, hstk, h⟩ := h
  obtain ⟨rep, orig, grp, hr⟩ := collapse_regroups hd hcol
  intro c hcm e he
  obtain ⟨ls, hls⟩ := C41_any_request (sm := leafSoftMax) hstk h c hcm
  obtain ⟨limit, hl1, hl2⟩ : ∃ limit, (Alone ls → limit = 80) ∧ (¬ Alone ls → limit = 100000) := by
    by_cases ha : Alone ls
    · exact ⟨80, fun _ => rfl, fun h => absurd ha h⟩
    · exact ⟨100000, fun h => absurd h ha, fun _ => rfl⟩
  have hans := fun l hl => hls.answers l hl limit hl1 hl2
  have hpm : ∀ l ∈ ls, l.q ∈ pms := fun l hl =>
    (path_types hstk hls.path).1 l.node (List.mem_map_of_mem hl) l.q (hans l hl).1
  obtain ⟨l, hl, hm, hp⟩ := forall₂_mem_right hls.entries he
  rw [List.mem_reverse] at hl
  obtain ⟨-, hk, q, hq, kg, hkg, hid, o, grids, ho, hgrids, hg⟩ := hans l hl
  obtain ⟨i1, i2, -⟩ := hr.idsUnique hd q hq l.q (hpm l hl) kg hkg l.kg hk hid
  obtain ⟨o1, o2, o3⟩ := hr.orig_mem l.q (hpm l hl) l.kg hk
  have hst' : (orig l.q l.kg).store = q.store := (store_of_bare o2).trans i1.symm
  refine ⟨orig l.q l.kg, o1, l.kg, o3, hp, l.grid, ?_, by
    change MadeFrom (bare _) _ _
    rw [o2]
    exact hm⟩
  refine C89_query (hc _ o1) (hst _ o1 _ (by rw [o3]; exact List.mem_singleton_self _)) (n := limit)
    (M := env.merger) (H := env.rows) (chk := env.chk) (opts := o) (out := grids) ?_ _ hg
  rw [hst', ← i2]
  exact hgrids

/-! ## Boxes -/

/-- **C89**: if the declared boxes of the indexes contain the tiles written to them, they contain
everything that answers. -/
theorem C89_boxes {env : Env} {opts : MatchOpts} {qs : List Subquery}
    (content : Subquery → Content) (hc : ∀ q ∈ qs, StoreWith (content q) q.store)
    (hst : ∀ q ∈ qs, ∀ k ∈ q.matchKeys, k.key.phrase.start < 2 ^ 32)
    (hb : ∀ q ∈ qs, BoxesHold (content q) q.store) : BoxesCover env opts qs := by
  rintro hit hq ⟨hk, o, before, after, -, e2, -⟩
  obtain ⟨k, es, e, h1, h2, -, h3⟩ := C89_query (hc _ hq) (hst _ hq _ hk) e2 hit.grid (by simp)
  obtain ⟨b, hbm, hbx⟩ := hb _ hq k es e h1 h2
  refine ⟨b, hbm, ?_⟩
  rw [h3.x, h3.y]
  exact hbx

/-- **C89**: with boxes that contain the tiles written, a small request returns exactly what it
should, and the boxes make no difference. -/
theorem C89_exact {env : TreeEnv} {qs : List Subquery} {opts : MatchOpts} {out : List Context}
    (hd : Delivered qs) (hfew : FewGroupStacks 2000 qs) (hz : env.chk = true ∨ ZoomsAscend qs)
    (hroom : RoomForGroups qs) (content : Subquery → Content)
    (hc : ∀ q ∈ qs, StoreWith (content q) q.store)
    (hst : ∀ q ∈ qs, ∀ k ∈ q.matchKeys, k.key.phrase.start < 2 ^ 32)
    (hb : ∀ q ∈ qs, BoxesHold (content q) q.store)
    (hout : stackAndCoalesce env qs opts = some out) (hlen : Short out) :
    ∀ c, c ∈ out ↔ ShouldReturn env.toEnv opts qs c :=
  (C81_exact hd hfew hz hroom (C89_boxes content hc hst hb) hout hlen).2

theorem frame_boxesHold : BoxesHold (Content.run frameCalls) (frameMatch (leaves frameCalls)).store := by
  intro k es e hes he
  have := effects_entries frame_effects (fun v => v.x = 5 ∧ v.y = 6) (by simp) (by
    intro d hd v hv
    unfold frameCalls at hd
    simp only [List.mem_cons, List.not_mem_nil, or_false] at hd
    rcases hd with rfl | rfl | rfl
    · cases hv
    · rw [List.mem_singleton.1 hv]; exact ⟨rfl, rfl⟩
    · rw [List.mem_singleton.1 hv]; exact ⟨rfl, rfl⟩) k es hes e he
  exact ⟨⟨0, 0, 63, 63⟩, by simp [frameMatch, Store.openWith], by rw [this.1, this.2]; decide⟩

/-- A search for phrase 7 finds what was written under it, and nothing else. -/
example : ∃ out, stackAndCoalesce (listTreeEnv true) [frameMatch (leaves frameCalls)]
      ⟨none, none, 6⟩ = some out ∧ out.length = 1 ∧
    (∀ c, c ∈ out ↔ ShouldReturn (listTreeEnv true).toEnv ⟨none, none, 6⟩
      [frameMatch (leaves frameCalls)] c) ∧
    ∀ c ∈ out, ∀ e ∈ c.entries, ∃ q ∈ [frameMatch (leaves frameCalls)], ∃ k, q.matchKeys = [k] ∧
      e.phrasematchId = k.id ∧ ∃ r, Written (Content.run frameCalls) q.store k.key r ∧
        MadeFrom q r e := by
  have h1 : ((stackAndCoalesce (listTreeEnv true) [frameMatch (leaves frameCalls)]
      ⟨none, none, 6⟩).map List.length) = some 1 := by decide +kernel
  obtain ⟨out, h1, h3⟩ := Option.map_eq_some_iff.1 h1
  have hd : Delivered [frameMatch (leaves frameCalls)] := ⟨by simp [frameMatch], by simp [frameMatch],
    by simp⟩
  have hc : ∀ q ∈ [frameMatch (leaves frameCalls)], StoreWith (Content.run frameCalls) q.store := by
    intro q hq
    rw [List.mem_singleton.1 hq]
    exact frame_storeWith ..
  have hst : ∀ q ∈ [frameMatch (leaves frameCalls)], ∀ k ∈ q.matchKeys,
      k.key.phrase.start < 2 ^ 32 := by
    intro q hq k hk
    rw [List.mem_singleton.1 hq] at hk
    rw [List.mem_singleton.1 hk]
    decide
  exact ⟨out, h1, h3, C89_exact hd (few_of_small (by decide)) (Or.inl rfl)
    (room_of_small (by decide) (by decide) (by
      intro q hq kg hk
      rw [List.mem_singleton.1 hq] at hk
      exact ⟨_, by rw [List.mem_singleton.1 hk]⟩)) (fun _ => Content.run frameCalls) hc hst
    (by
      intro q hq
      rw [List.mem_singleton.1 hq]
      exact frame_boxesHold) h1
    ⟨by omega, fun id => lt_of_le_of_lt (List.length_filter_le _ _) (by omega)⟩,
    C89_search hd (fun _ => Content.run frameCalls) hc hst h1⟩

/-! ## The stores of the tests -/

theorem runAll_inserts (blocks : List (GridKey × List GridEntry)) (b : Builder) :
    blocks.foldl (fun b p => b.insert p.1 p.2) b =
      runAll b (blocks.map fun p => .insert p.1 p.2) := by
  unfold runAll
  rw [List.foldl_map]
  rfl

theorem effects_inserts (blocks : List (GridKey × List GridEntry)) (s : Content) :
    Effects s (blocks.map fun p => .insert p.1 p.2) fun k =>
      ((blocks.reverse.find? fun p => p.1 = k).map Prod.snd).or (s k) := by
  induction blocks generalizing s with
  | nil => exact .nil s
  | cons p t ih =>
    have := ih (s.set p.1 p.2)
    refine .cons (s' := s.set p.1 p.2) rfl ?_
    convert this using 2 with k
    rw [List.reverse_cons, List.find?_append]
    cases t.reverse.find? fun p => p.1 = k with
    | some x => rfl
    | none =>
      unfold Content.set
      by_cases hk : p.1 = k
      · simp [hk]
      · simp [hk, Ne.symm hk]

/-- **C89**, `create_store`: the store holds for every key the last block given for it, and its box
contains all tiles of its zoom. -/
theorem C89_create_store {o : IterOrder} {blocks : List (GridKey × List GridEntry)}
    {zoom typeId : ℕ} {radius : F64} {s : Store}
    (hw : ∀ p ∈ blocks, p.1.Wf ∧ ∀ e ∈ p.2, e.Wf)
    (h : Tools.createStore o blocks zoom typeId radius = some s)
    (hsmall : ∀ r ∈ s.db, r.2.length < 2 ^ 32) :
    StoreWith (fun k => (blocks.reverse.find? fun p => p.1 = k).map Prod.snd) s ∧
    s.zoom = zoom ∧ s.typeId = typeId ∧ s.radius = radius ∧
    (zoom ≤ 16 → (∀ p ∈ blocks, ∀ e ∈ p.2, e.x < 2 ^ zoom ∧ e.y < 2 ^ zoom) →
      BoxesHold (fun k => (blocks.reverse.find? fun p => p.1 = k).map Prod.snd) s) := by
  unfold Tools.createStore at h
  obtain ⟨db, hfin, rfl⟩ := Option.map_eq_some_iff.1 h
  refine ⟨⟨o, blocks.map fun p => .insert p.1 p.2, ?_, ?_, hsmall, ?_⟩, rfl, rfl, rfl, ?_⟩
  · intro d hd
    obtain ⟨p, hp, rfl⟩ := List.mem_map.1 hd
    exact hw p hp
  · rw [← runAll_inserts]
    exact hfin
  · simpa using effects_inserts blocks fun _ => none
  · intro hz ht k es e hes he
    obtain ⟨p, hp, rfl⟩ := Option.map_eq_some_iff.1 hes
    have hpm : p ∈ blocks := List.mem_reverse.1 (List.mem_of_find?_eq_some hp)
    obtain ⟨b, hb, hall⟩ := C26_global_box hz
    refine ⟨b, ?_, (hall (e.x, e.y)).2 (ht p hpm e he)⟩
    show b ∈ globalBBoxForZoom zoom
    rw [hb]
    exact List.mem_singleton_self b

/-- A key given twice keeps the second block. -/
example : (Tools.createStore .id [(⟨1, 1⟩, [⟨1, 1, 2, 2, 1, 0⟩]), (⟨1, 1⟩, [⟨1, 3, 5, 6, 7, 0⟩])] 6 1
      (.fin 200)).bind (fun s => s.get ⟨1, 1⟩) = some (some [⟨1, 3, 5, 6, 7, 0⟩]) ∧
    ((Tools.createStore .id [(⟨1, 1⟩, [⟨1, 1, 2, 2, 1, 0⟩]), (⟨1, 1⟩, [⟨1, 3, 5, 6, 7, 0⟩])] 6 1
      (.fin 200)).map Store.bboxes) = some [⟨0, 0, 63, 63⟩] := by decide +kernel

end Carmen
