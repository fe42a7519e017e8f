import Verif.Lemmas.SameBox
import Verif.Props.Ground
import Verif.Lemmas.SameAnswers
import Verif.Props.Found

/-!
# C86: a box matters only through the stored tiles in it
-/

namespace Carmen
open Format Spec

/-! ## Queries -/

/-- **C86**: two queries whose boxes contain the same stored tiles give the same list, or both
panic. -/
theorem C86_query {s : Store} (hd : LaidOut s.db) {opts opts' : MatchOpts}
    (hb : SameButBox opts opts') (hsame : SameTiles opts opts' s) (M : KMerger)
    (H : Heap QueueElement.key) {chk : Bool} (ho : OptsWf opts) (ho' : OptsWf opts')
    (hf : BoxFit chk opts) (hf' : BoxFit chk opts') (mk : MatchKey) (n : ℕ) :
    s.getMatching M H chk mk opts n = s.getMatching M H chk mk opts' n :=
  getMatching_same hd hb hsame M H ho ho' hf hf' mk n

/-! ## `coalesce` -/

theorem Spec.SoundOpts.wf {opts : MatchOpts} (h : SoundOpts opts) : OptsWf opts := by
  have hp : 2 ^ opts.zoom ≤ 2 ^ 16 := Nat.pow_le_pow_right (by norm_num) h.zoom
  refine ⟨fun b hb => ?_, fun p hp' => ?_⟩
  · obtain ⟨-, h1, -, h2⟩ := h.box b hb
    exact ⟨by omega, by omega⟩
  · obtain ⟨h1, h2⟩ := h.point p hp'
    exact ⟨by omega, by omega⟩

theorem adjust_sound (env : Env) {opts : MatchOpts} {s : Store} (hs : SoundOpts opts)
    (hz : ZoomFits opts s) : env.adjust opts s.zoom = some (opts.adjustToZoom s.zoom) := by
  unfold Env.adjust
  split_ifs
  · exact C26_no_overflow hs.optsAt hs.zoom hz.1 hz.2.1 hz.2.2
  · rfl

/-- The adjusted box has its corners in order. -/
theorem adjusted_ordered {opts : MatchOpts} {s : Store} (hs : SoundOpts opts)
    (hz : ZoomFits opts s) (chk : Bool) : BoxFit chk (opts.adjustToZoom s.zoom) := by
  intro _ b' hb'
  cases hb : opts.bbox with
  | none =>
    exfalso
    unfold MatchOpts.adjustToZoom at hb'
    split_ifs at hb'
    · rw [hb] at hb'; cases hb'
    · rw [hb] at hb'; cases hb'
  | some b =>
    obtain ⟨b'', h1, h2⟩ := C85_box_exact hs hz hb
    rw [hb'] at h1
    cases h1
    obtain ⟨s1, -, s2, -⟩ := hs.box b hb
    -- the corner of the box lies in some tile
    have hin : InArea opts.zoom b (b.minX / 2 ^ opts.zoom) (b.minY / 2 ^ opts.zoom) := by
      have hne : (2 : ℚ) ^ opts.zoom ≠ 0 := pow_ne_zero _ (by norm_num)
      have c1 : (b.minX : ℚ) ≤ b.maxX := by exact_mod_cast s1
      have c2 : (b.minY : ℚ) ≤ b.maxY := by exact_mod_cast s2
      unfold InArea
      rw [div_mul_cancel₀ _ hne, div_mul_cancel₀ _ hne]
      exact ⟨le_rfl, by linarith, le_rfl, by linarith⟩
    have hx : (0 : ℚ) ≤ b.minX / 2 ^ opts.zoom * 2 ^ s.zoom := by positivity
    have hy : (0 : ℚ) ≤ b.minY / 2 ^ opts.zoom * 2 ^ s.zoom := by positivity
    obtain ⟨x1, x2, x3, x4⟩ := (h2 ⌊(b.minX : ℚ) / 2 ^ opts.zoom * 2 ^ s.zoom⌋₊
      ⌊(b.minY : ℚ) / 2 ^ opts.zoom * 2 ^ s.zoom⌋₊).2 ⟨_, _, ⟨Nat.floor_le hx,
        Nat.lt_floor_add_one _, Nat.floor_le hy, Nat.lt_floor_add_one _⟩, hin⟩
    exact ⟨x1.trans x2, x3.trans x4⟩

theorem adjusted_in {opts : MatchOpts} {s : Store} (hs : SoundOpts opts) (hz : ZoomFits opts s)
    (x y : ℕ) : (∀ b, (opts.adjustToZoom s.zoom).bbox = some b →
        b.minX ≤ x ∧ x ≤ b.maxX ∧ b.minY ≤ y ∧ y ≤ b.maxY) ↔
      ∀ b, opts.bbox = some b → Touches s.zoom (x, y) opts.zoom b := by
  cases hb : opts.bbox with
  | none =>
    have : (opts.adjustToZoom s.zoom).bbox = none := by
      unfold MatchOpts.adjustToZoom
      split_ifs
      · exact hb
      · rw [hb]; rfl
    rw [this]
    simp
  | some b =>
    obtain ⟨b', h1, h2⟩ := C85_box_exact hs hz hb
    rw [h1]
    simp only [Option.some.injEq, forall_eq']
    exact h2 x y

theorem adjusted_same {opts opts' : MatchOpts} (hb : SameButBox opts opts') (z : ℕ) :
    SameButBox (opts.adjustToZoom z) (opts'.adjustToZoom z) := by
  refine ⟨?_, by rw [adjusted_zoom, adjusted_zoom]⟩
  unfold MatchOpts.adjustToZoom
  rw [hb.zoom]
  split_ifs
  · exact hb.point
  · rw [hb.point]

/-- Both requests get the same answers from the index. -/
theorem query_same_ground {opts opts' : MatchOpts} {s : Store} (hs : SoundOpts opts)
    (hs' : SoundOpts opts') (hb : SameButBox opts opts') (hz : ZoomFits opts s)
    (hd : LaidOut s.db) (hg : SameGround opts opts' s) (env : Env) (key : MatchKey) (n : ℕ) :
    env.query s key (opts.adjustToZoom s.zoom) n = env.query s key (opts'.adjustToZoom s.zoom) n := by
  have hz' : ZoomFits opts' s := by
    unfold ZoomFits at hz ⊢
    rw [← hb.zoom]
    exact hz
  refine getMatching_same hd (adjusted_same hb _) ?_ _ _ (adjustToZoom_wf hs.wf _)
    (adjustToZoom_wf hs'.wf _) (adjusted_ordered hs hz _) (adjusted_ordered hs' hz' _) key n
  intro x y hst
  rw [adjusted_in hs hz, adjusted_in hs' hz']
  exact hg x y hst

theorem mkEntry_box {opts opts' : MatchOpts} (h : opts.zoom = opts'.zoom) (chk : Bool)
    (q : Subquery) (pid : ℕ) : mkEntry chk opts q pid = mkEntry chk opts' q pid := by
  funext g
  unfold mkEntry
  rw [h]

/-- The options of the state are changed. -/
def withOpts (o : MatchOpts) (s : MultiState) : MultiState := { s with opts := o }

theorem multiGrid_opts {chk : Bool} {zooms : List ℕ} {q : Subquery} {first last : Bool}
    {s : MultiState} {o : MatchOpts} (h : s.opts.zoom = o.zoom) (g : MatchEntry) :
    multiGrid chk zooms q first last (withOpts o s) g =
      (multiGrid chk zooms q first last s g).map (withOpts o) ∧
    ∀ s', multiGrid chk zooms q first last s g = some s' → s'.opts = s.opts := by
  unfold multiGrid
  have e : mkEntry chk (withOpts o s).opts q 0 g = mkEntry chk s.opts q 0 g := by
    rw [mkEntry_box (opts := (withOpts o s).opts) (opts' := s.opts) h.symm]
  rw [e]
  cases mkEntry chk s.opts q 0 g with
  | none => exact ⟨rfl, fun s' hs => by cases hs⟩
  | some e =>
    simp only [Option.bind_eq_bind, Option.bind_some]
    have ec : (withOpts o s).coalesced = s.coalesced := rfl
    rw [ec]
    cases zooms.foldlM (absorbZoom chk q.store.zoom s.coalesced) ⟨e.mask, e.entry.relev, [e]⟩ with
    | none => exact ⟨rfl, fun s' hs => by cases hs⟩
    | some c =>
      simp only [Option.bind_some]
      have em : (withOpts o s).maxRelev = s.maxRelev := rfl
      rw [em]
      refine ⟨?_, fun s' hs => ?_⟩
      · split_ifs <;> rfl
      · split_ifs at hs <;> · cases hs; rfl

theorem multiGrids_opts {chk : Bool} {zooms : List ℕ} {q : Subquery} {first last : Bool}
    {o : MatchOpts} (gs : List MatchEntry) : ∀ {s : MultiState}, s.opts.zoom = o.zoom →
    gs.foldlM (multiGrid chk zooms q first last) (withOpts o s) =
      (gs.foldlM (multiGrid chk zooms q first last) s).map (withOpts o) ∧
    ∀ s', gs.foldlM (multiGrid chk zooms q first last) s = some s' → s'.opts = s.opts := by
  induction gs with
  | nil => intro s _; exact ⟨rfl, fun s' hs => by cases hs; rfl⟩
  | cons g t ih =>
    intro s h
    obtain ⟨h1, h2⟩ := multiGrid_opts (chk := chk) (zooms := zooms) (q := q) (first := first)
      (last := last) h g
    simp only [List.foldlM_cons, Option.bind_eq_bind]
    rw [h1]
    cases hm : multiGrid chk zooms q first last s g with
    | none => exact ⟨rfl, fun s' hs => by cases hs⟩
    | some m =>
      have hmo := h2 m hm
      simp only [Option.map_some, Option.bind_some]
      obtain ⟨i1, i2⟩ := ih (s := m) (hmo ▸ h)
      exact ⟨i1, fun s' hs => (i2 s' hs).trans hmo⟩

theorem optsFor_sound {env : Env} {opts : MatchOpts} (hs : SoundOpts opts) {q : Subquery}
    (hz : ZoomFits opts q.store) {st : MultiState} {z : ℕ} (hst : st.opts = opts.adjustToZoom z) :
    st.optsFor env opts q = some (opts.adjustToZoom q.store.zoom) := by
  unfold MultiState.optsFor
  rw [hst, adjusted_zoom]
  split_ifs with h
  · exact adjust_sound env hs hz
  · rw [not_not.1 h]

theorem multiStep_box {env : Env} {o : IterOrder} {opts opts' : MatchOpts} {stack : List Subquery}
    (hs : SoundOpts opts) (hs' : SoundOpts opts') (hb : SameButBox opts opts') {q : Subquery}
    (hz : ZoomFits opts q.store) (hd : LaidOut q.store.db)
    (hg : SameGround opts opts' q.store) {st : MultiState} {z : ℕ}
    (hst : st.opts = opts.adjustToZoom z) (i : ℕ) :
    multiStep env o opts' stack (withOpts (opts'.adjustToZoom z) st) i q =
      (multiStep env o opts stack st i q).map (withOpts (opts'.adjustToZoom q.store.zoom)) ∧
    ∀ st', multiStep env o opts stack st i q = some st' →
      st'.opts = opts.adjustToZoom q.store.zoom := by
  have hz' : ZoomFits opts' q.store := by
    unfold ZoomFits at hz ⊢
    rw [← hb.zoom]
    exact hz
  unfold multiStep
  rw [optsFor_sound hs hz hst, optsFor_sound hs' hz' (st := withOpts (opts'.adjustToZoom z) st) rfl]
  simp only [Option.bind_eq_bind, Option.bind_some]
  cases q.matchKeys.head? with
  | none => exact ⟨rfl, fun s' hs => by cases hs⟩
  | some k =>
    simp only [Option.bind_some]
    rw [query_same_ground hs hs' hb hz hd hg]
    cases env.query q.store k.key (opts'.adjustToZoom q.store.zoom) maxGridsPerPhrase with
    | none => exact ⟨rfl, fun s' hs => by cases hs⟩
    | some grids =>
      simp only [Option.bind_some]
      obtain ⟨h1, h2⟩ := multiGrids_opts (chk := env.chk) (zooms := compatibleZooms stack q) (q := q)
        (first := i == 0) (last := i + 1 == stack.length) (o := opts'.adjustToZoom q.store.zoom)
        (grids.take maxGridsPerPhrase) (s := withOpts (opts.adjustToZoom q.store.zoom) st)
        (adjusted_same hb _).zoom
      refine ⟨?_, fun st' hst' => ?_⟩
      · refine Eq.trans (congrArg (fun x => Option.bind x _) h1) ?_
        refine Eq.trans ?_ (congrArg (Option.map (withOpts (opts'.adjustToZoom q.store.zoom)))
          (show Option.bind (List.foldlM (multiGrid env.chk (compatibleZooms stack q) q (i == 0)
            (i + 1 == stack.length)) (withOpts (opts.adjustToZoom q.store.zoom) st)
            (grids.take maxGridsPerPhrase)) _ = _ from rfl))
        cases List.foldlM (multiGrid env.chk (compatibleZooms stack q) q (i == 0)
          (i + 1 == stack.length)) (withOpts (opts.adjustToZoom q.store.zoom) st)
          (grids.take maxGridsPerPhrase) with
        | none => rfl
        | some m => rfl
      · obtain ⟨m, hm, hm'⟩ := Option.bind_eq_some_iff.1 hst'
        cases hm'
        exact h2 m hm

theorem multiLoop_box {env : Env} {os : ℕ → IterOrder} {opts opts' : MatchOpts}
    {stack : List Subquery} (hs : SoundOpts opts) (hs' : SoundOpts opts')
    (hb : SameButBox opts opts') : ∀ (qs : List Subquery),
    (∀ q ∈ qs, ZoomFits opts q.store ∧ LaidOut q.store.db ∧ SameGround opts opts' q.store) →
    ∀ (i : ℕ) {st : MultiState} {z : ℕ}, st.opts = opts.adjustToZoom z →
      ∃ z', multiLoop env os opts' stack i qs (withOpts (opts'.adjustToZoom z) st) =
        (multiLoop env os opts stack i qs st).map (withOpts (opts'.adjustToZoom z')) := by
  intro qs
  induction qs with
  | nil => intro _ i st z _; exact ⟨z, rfl⟩
  | cons q t ih =>
    intro hq i st z hst
    obtain ⟨a1, a2, a3⟩ := hq q List.mem_cons_self
    obtain ⟨h1, h2⟩ := multiStep_box (env := env) (o := os i) (stack := stack) hs hs' hb a1 a2 a3
      hst i
    unfold multiLoop
    simp only [Option.bind_eq_bind]
    rw [h1]
    cases hm : multiStep env (os i) opts stack st i q with
    | none => exact ⟨z, rfl⟩
    | some m =>
      simp only [Option.map_some, Option.bind_some]
      exact ih (fun q hq' => hq q (List.mem_cons_of_mem _ hq')) (i + 1) (h2 m hm)

/-- **C86**: two requests to `coalesce` whose boxes touch the same stored tiles of each index return
the same list, or both panic. For one phrase match the request has to be at the zoom of its index. -/
theorem C86_coalesce (env : Env) (os : ℕ → IterOrder) (stack : List Subquery)
    {opts opts' : MatchOpts} (hs : SoundOpts opts) (hs' : SoundOpts opts')
    (hb : SameButBox opts opts')
    (hq : ∀ q ∈ stack, ZoomFits opts q.store ∧ LaidOut q.store.db ∧
      SameGround opts opts' q.store)
    (hone : stack.length = 1 → ∀ q ∈ stack, opts.zoom = q.store.zoom) :
    coalesce env os stack opts = coalesce env os stack opts' := by
  have hall : allContexts env os stack opts = allContexts env os stack opts' := by
    unfold allContexts
    split_ifs with hl
    · cases stack with
      | nil => rfl
      | cons q t =>
        obtain ⟨hz, hd, hg⟩ := hq q List.mem_cons_self
        have h1 : opts.zoom = q.store.zoom :=
          hone (by simp only [List.length_cons] at hl ⊢; omega) q List.mem_cons_self
        have hqs := query_same_ground hs hs' hb hz hd hg env
        have e : opts.adjustToZoom q.store.zoom = opts := by
          unfold MatchOpts.adjustToZoom; rw [if_pos h1]
        have e' : opts'.adjustToZoom q.store.zoom = opts' := by
          unfold MatchOpts.adjustToZoom; rw [if_pos (hb.zoom.symm.trans h1)]
        rw [e, e'] at hqs
        simp only [List.head?_cons, Option.bind_some]
        unfold coalesceSingle singleFeatures
        simp only [hqs, mkEntry_box hb.zoom, hb.point]
    · unfold coalesceMulti
      have hself : opts.adjustToZoom opts.zoom = opts := by
        unfold MatchOpts.adjustToZoom; rw [if_pos rfl]
      have hself' : opts'.adjustToZoom opts.zoom = opts' := by
        unfold MatchOpts.adjustToZoom; rw [if_pos hb.zoom.symm]
      obtain ⟨z, h1⟩ := multiLoop_box (env := env) (os := os)
        (stack := stack.insertionSort fun a b => a.stackKey ≤ b.stackKey) hs hs' hb
        (stack.insertionSort fun a b => a.stackKey ≤ b.stackKey)
        (fun q hq' => hq q ((List.perm_insertionSort _ _).mem_iff.1 hq')) 0
        (st := ⟨[], [], [], 0, opts⟩) (z := opts.zoom) hself.symm
      rw [hself'] at h1
      simp only [Option.bind_eq_bind]
      refine Eq.trans ?_ (congrArg (fun x => Option.bind x _) h1.symm)
      cases multiLoop env os opts _ 0 (stack.insertionSort fun a b => a.stackKey ≤ b.stackKey)
        ⟨[], [], [], 0, opts⟩ with
      | none => rfl
      | some m => rfl
  unfold coalesce
  rw [hall]

/-! ## `stack_and_coalesce` -/

/-- Tiles in the box after it has been limited to the surroundings. -/
theorem nearby_same {o o' : MatchOpts} (hb : SameButBox o o') {s : Store} (h : SameTiles o o' s) :
    SameButBox o.withNearbyOnly o'.withNearbyOnly ∧
      SameTiles o.withNearbyOnly o'.withNearbyOnly s := by
  obtain ⟨a1, a2⟩ := nearby_point o
  obtain ⟨b1, b2⟩ := nearby_point o'
  refine ⟨⟨by rw [a2, b2, hb.point], by rw [a1, b1, hb.zoom]⟩, fun x y hst => ?_⟩
  have hxy := h x y hst
  unfold MatchOpts.withNearbyOnly
  rw [← hb.point, ← hb.zoom]
  cases hp : o.proximity with
  | none => exact hxy
  | some p =>
    dsimp only
    cases h1 : o.bbox <;> cases h2 : o'.bbox <;> rw [h1, h2] at hxy <;>
      simp only [Option.some.injEq, forall_eq', max_le_iff, le_min_iff, reduceCtorEq, false_implies,
        implies_true, true_iff, iff_true] at hxy ⊢ <;> tauto

/-- **C86**: two small requests to `stack_and_coalesce` whose boxes touch the same stored tiles of
each index return the same contexts in the same ranks. -/
theorem C86_search {env env' : TreeEnv} (henv : env.toEnv = env'.toEnv) (hchk : env.chk = false)
    {qs : List Subquery} {opts opts' : MatchOpts} {out out' : List Context} (hs : SoundOpts opts)
    (hs' : SoundOpts opts') (hb : SameButBox opts opts')
    (hq : ∀ q ∈ qs, ZoomFits opts q.store ∧ LaidOut q.store.db ∧ SameGround opts opts' q.store)
    (hd : Delivered qs) (hfew : FewGroupStacks 2000 qs) (hz : ZoomsAscend qs)
    (hroom : RoomForGroups qs) (hbox : BoxesCover env.toEnv opts qs)
    (hout : stackAndCoalesce env qs opts = some out)
    (hout' : stackAndCoalesce env' qs opts' = some out') (hlen : Short out) :
    out.Perm out' ∧ out.map Context.sortKey = out'.map Context.sortKey := by
  have hsame : ∀ q ∈ qs, SameAnswers env.toEnv opts opts' q q := by
    intro q hqm
    obtain ⟨hzf, hl, hg⟩ := hq q hqm
    have hzf' : ZoomFits opts' q.store := by
      unfold ZoomFits at hzf ⊢
      rw [← hb.zoom]
      exact hzf
    refine ⟨rfl, rfl, rfl, fun kg _ n => ?_⟩
    obtain ⟨l1, w1, -⟩ := lookupOpts_release hchk hs.wf hs.zoom hzf.1 kg
    obtain ⟨l2, w2, -⟩ := lookupOpts_release hchk hs'.wf hs'.zoom hzf'.1 kg
    unfold answersTo
    rw [l1, l2, Option.bind_some, Option.bind_some]
    have hadj : SameTiles (opts.adjustToZoom q.store.zoom) (opts'.adjustToZoom q.store.zoom)
        q.store := by
      intro x y hst
      rw [adjusted_in hs hzf, adjusted_in hs' hzf']
      exact hg x y hst
    have hk : SameButBox (keyLookup opts q kg) (keyLookup opts' q kg) ∧
        SameTiles (keyLookup opts q kg) (keyLookup opts' q kg) q.store := by
      unfold keyLookup
      split_ifs
      · exact nearby_same (adjusted_same hb _) hadj
      · exact ⟨adjusted_same hb _, hadj⟩
    have hf : ∀ o, BoxFit env.chk o := by
      intro o h
      rw [hchk] at h
      cases h
    exact (getMatching_same hl hk.1 hk.2 _ _ w1 w2 (hf _) (hf _) kg.key n).symm
  have hbox' : BoxesCover env.toEnv opts' qs := by
    intro h hh ha
    refine hbox h hh ?_
    rw [firstAnswer_iff] at ha ⊢
    rw [← (hsame h.q hh).answers h.kg ha.1]
    exact ha
  exact search_same_answers henv hd hd (List.forall₂_same.2 hsame) (by rw [hb.point]) hfew hz hroom
    hbox hbox' hout hout' hlen

/-! ## Examples -/

/-- The numbers of the tiles in the records. -/
def rawTiles (db : SMap Bytes Bytes) : List ℕ :=
  db.flatMap fun r => (((readRoot r.2).bind (readVarVec r.2)).getD []).flatMap fun g =>
    (coordsOf r.2 g).map Coord.coord

theorem storedTile_raw {db : SMap Bytes Bytes} (hsmall : SmallRecords db) {x y : ℕ}
    (h : StoredTile db x y) : ∃ z ∈ rawTiles db, deinterleave z = (x, y) := by
  obtain ⟨r, hr, -, groups, hrec, g, hg, t, ht, hxy⟩ := h
  obtain ⟨⟨rec, h5, rfl⟩, h6⟩ := hrec.reads (hsmall r hr)
  have hlt := h6 g hg t ht
  obtain ⟨g', hg', rfl⟩ := List.mem_map.1 hg
  obtain ⟨c, hc, rfl⟩ := List.mem_map.1 ht
  refine ⟨c.1.coord, ?_, ?_⟩
  · obtain ⟨a, h1, h2⟩ := h5.root
    refine List.mem_flatMap.2 ⟨r, hr, List.mem_flatMap.2 ⟨g'.1, ?_, List.mem_map.2 ⟨c.1, ?_, rfl⟩⟩⟩
    · rw [h1, Option.bind_some, h2]
      exact List.mem_map_of_mem hg'
    · rw [h5.coordsOf_eq hg']
      exact List.mem_map_of_mem hc
  · have hdl := deinterleave_lt c.1.coord
    have h7 := isTile_interleave hdl.1 hdl.2
    rw [interleave_deinterleave hlt] at h7
    refine Prod.ext (Nat.eq_of_testBit_eq fun i => ?_) (Nat.eq_of_testBit_eq fun i => ?_)
    · rw [← (h7 i).1, (hxy i).1]
    · rw [← (h7 i).2, (hxy i).2]

/-- The box at the zoom of the index contains the tile. -/
def boxHas (opts : MatchOpts) (z : ℕ) (t : ℕ × ℕ) : Bool :=
  (opts.adjustToZoom z).bbox.all fun b =>
    decide (b.minX ≤ t.1 ∧ t.1 ≤ b.maxX ∧ b.minY ≤ t.2 ∧ t.2 ≤ b.maxY)

theorem boxHas_iff {opts : MatchOpts} {z : ℕ} {x y : ℕ} : boxHas opts z (x, y) = true ↔
    ∀ b, (opts.adjustToZoom z).bbox = some b →
      b.minX ≤ x ∧ x ≤ b.maxX ∧ b.minY ≤ y ∧ y ≤ b.maxY := by
  unfold boxHas
  cases (opts.adjustToZoom z).bbox with
  | none => simp
  | some b => simp

theorem sameGround_of {opts opts' : MatchOpts} {s : Store} (hs : SoundOpts opts)
    (hs' : SoundOpts opts') (hz : ZoomFits opts s) (hz' : ZoomFits opts' s)
    (hsmall : SmallRecords s.db)
    (h : ((rawTiles s.db).all fun z => boxHas opts s.zoom (deinterleave z) ==
      boxHas opts' s.zoom (deinterleave z)) = true) : SameGround opts opts' s := by
  intro x y hst
  obtain ⟨z, hz1, hz2⟩ := storedTile_raw hsmall hst
  have := List.all_eq_true.1 h z hz1
  rw [hz2, beq_iff_eq, Bool.eq_iff_iff, boxHas_iff, boxHas_iff] at this
  rw [← adjusted_in hs hz, ← adjusted_in hs' hz']
  exact this

/-- A box of one tile. -/
abbrev smallBox : MatchOpts := ⟨some ⟨1, 2, 1, 2⟩, some (1, 2), 6⟩

/-- A box of nine tiles. -/
abbrev wideBox : MatchOpts := ⟨some ⟨1, 1, 3, 3⟩, some (1, 2), 6⟩

theorem smallBox_sound : SoundOpts smallBox := by
  refine ⟨by decide, ?_, ?_⟩
  · rintro p ⟨⟩; decide
  · rintro b ⟨⟩; decide

theorem wideBox_sound : SoundOpts wideBox := by
  refine ⟨by decide, ?_, ?_⟩
  · rintro p ⟨⟩; decide
  · rintro b ⟨⟩; decide

theorem regionStore_laid : LaidOut regionStore.db :=
  laidOut_finish (o := .id) regionBuilder_wf (by decide +kernel) (by decide +kernel)

theorem streetStore_laid : LaidOut streetStore.db :=
  laidOut_finish (o := .id) streetBuilder_wf (by decide +kernel) (by decide +kernel)

theorem boxes_same : ∀ q ∈ [regionTreeMatch, streetTreeMatch], ZoomFits smallBox q.store ∧
    LaidOut q.store.db ∧ SameGround smallBox wideBox q.store := by
  intro q hq
  simp only [List.mem_cons, List.not_mem_nil, or_false] at hq
  rcases hq with rfl | rfl
  · have hz : ZoomFits smallBox regionTreeMatch.store := by unfold ZoomFits; decide +kernel
    exact ⟨hz, regionStore_laid, sameGround_of smallBox_sound wideBox_sound hz hz
      (by unfold SmallRecords; decide +kernel) (by decide +kernel)⟩
  · have hz : ZoomFits smallBox streetTreeMatch.store := by unfold ZoomFits; decide +kernel
    exact ⟨hz, streetStore_laid, sameGround_of smallBox_sound wideBox_sound hz hz
      (by unfold SmallRecords; decide +kernel) (by decide +kernel)⟩

/-- The boxes leave out the street of tile (40, 40), and give the same contexts. -/
example (os : ℕ → IterOrder) : coalesce listEnv os [regionTreeMatch, streetTreeMatch] smallBox =
      coalesce listEnv os [regionTreeMatch, streetTreeMatch] wideBox ∧
    (coalesce listEnv (fun _ => .id) [regionTreeMatch, streetTreeMatch] smallBox).map (fun cs =>
      cs.map fun c => c.entries.map fun e => (e.idx, e.entry.id)) = some [[(1, 7), (0, 3)]] :=
  ⟨C86_coalesce listEnv os _ smallBox_sound wideBox_sound ⟨rfl, rfl⟩ boxes_same (by
    intro h; cases h), by decide +kernel⟩

/-- A query with boxes at the zoom of the index. -/
example (M : KMerger) (H : Heap QueueElement.key) (n : ℕ) :
    regionStore.getMatching M H true ⟨.exact 1, 1⟩ smallBox n =
      regionStore.getMatching M H true ⟨.exact 1, 1⟩ wideBox n ∧
    (regionStore.getMatching listMerger (listHeap _) true ⟨.exact 1, 1⟩ smallBox 5).map
      List.length = some 2 := by
  refine ⟨?_, by decide +kernel⟩
  have h := (boxes_same regionTreeMatch (by simp)).2.2
  have hz : ZoomFits smallBox regionTreeMatch.store := by unfold ZoomFits; decide +kernel
  refine C86_query (opts := smallBox) (opts' := wideBox) regionStore_laid ⟨rfl, rfl⟩ (fun x y hst => ?_) M H smallBox_sound.wf
    wideBox_sound.wf ?_ ?_ _ n
  · have := h x y hst
    rw [← adjusted_in smallBox_sound hz, ← adjusted_in wideBox_sound hz] at this
    exact this
  · rintro - b ⟨⟩; decide
  · rintro - b ⟨⟩; decide

/-- A search with both boxes. -/
example : ∃ out out', stackAndCoalesce (listTreeEnv false) [regionTreeMatch, streetTreeMatch]
      smallBox = some out ∧
    stackAndCoalesce (listTreeEnv false) [regionTreeMatch, streetTreeMatch] wideBox = some out' ∧
    out.length = 5 ∧ out.Perm out' := by
  have h1 : ((stackAndCoalesce (listTreeEnv false) [regionTreeMatch, streetTreeMatch]
      smallBox).map List.length) = some 5 := by decide +kernel
  have h2 : ((stackAndCoalesce (listTreeEnv false) [regionTreeMatch, streetTreeMatch]
      wideBox).map List.length) = some 5 := by decide +kernel
  obtain ⟨out, h1, h3⟩ := Option.map_eq_some_iff.1 h1
  obtain ⟨out', h2, -⟩ := Option.map_eq_some_iff.1 h2
  have hd : Delivered [regionTreeMatch, streetTreeMatch] :=
    ⟨by decide +kernel, by decide +kernel, by decide +kernel⟩
  have hroom : RoomForGroups [regionTreeMatch, streetTreeMatch] :=
    room_of_small (by decide +kernel) (by decide +kernel) (by
      intro q hq kg hk
      simp only [List.mem_cons, List.not_mem_nil, or_false] at hq
      rcases hq with rfl | rfl <;> exact ⟨_, by rw [List.mem_singleton.1 hk]⟩)
  have hz : ZoomsAscend [regionTreeMatch, streetTreeMatch] := by
    unfold ZoomsAscend
    decide +kernel
  exact ⟨out, out', h1, h2, h3, (C86_search rfl rfl smallBox_sound wideBox_sound ⟨rfl, rfl⟩
    boxes_same hd (few_of_small (by decide +kernel)) hz hroom (boxesCover_of (by decide +kernel)) h1 h2
    ⟨by omega, fun id => lt_of_le_of_lt (List.length_filter_le _ _) (by omega)⟩).1⟩

end Carmen
