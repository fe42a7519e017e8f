import Verif.Props.Failed
import Verif.Spec.NoPanic
import Verif.Lemmas.WrittenBytes
import Verif.Lemmas.QueryIds
import Verif.Props.Query
import Verif.Lemmas.TreeGenuine

/-!
# The coalesce functions return
-/

namespace Carmen

open Builder Spec

/-! ## Options -/

theorem shr16_lt {a n : ℕ} (h : a < 2 ^ 16) : shr16 a n < 2 ^ 16 := by
  unfold shr16
  rw [Nat.shiftRight_eq_div_pow]
  exact lt_of_le_of_lt (Nat.div_le_self _ _) h

theorem add16_lt (a b : ℕ) : add16 a b < 2 ^ 16 := Nat.mod_lt _ (by norm_num)

theorem adjustToZoom_zoom (o : MatchOpts) (z : ℕ) : (o.adjustToZoom z).zoom = z := by
  unfold MatchOpts.adjustToZoom
  split_ifs with h
  · exact h
  · rfl

theorem adjustToZoom_wf {o : MatchOpts} (h : OptsWf o) (z : ℕ) : OptsWf (o.adjustToZoom z) := by
  unfold MatchOpts.adjustToZoom
  split_ifs with hz
  · exact h
  · refine ⟨?_, ?_⟩
    · intro b hb
      simp only [Option.map_eq_some_iff] at hb
      obtain ⟨b0, h0, rfl⟩ := hb
      obtain ⟨h1, h2⟩ := h.1 b0 h0
      unfold adjustBBoxZoom
      split_ifs
      · exact ⟨shr16_lt h1, shr16_lt h2⟩
      · exact ⟨add16_lt _ _, add16_lt _ _⟩
    · intro p hp
      simp only [Option.map_eq_some_iff] at hp
      obtain ⟨p0, h0, rfl⟩ := hp
      obtain ⟨h1, h2⟩ := h.2 p0 h0
      unfold adjustProximity
      split_ifs
      · exact ⟨shr16_lt h1, shr16_lt h2⟩
      · exact ⟨add16_lt _ _, add16_lt _ _⟩

/-- A valid point and box stay valid. -/
theorem adjustToZoom_at {o : MatchOpts} (h : OptsAt o) {z : ℕ} (hz : o.zoom ≤ 15) (ht : z ≤ 15) :
    OptsAt (o.adjustToZoom z) := by
  refine ⟨?_, ?_⟩
  · intro p hp
    rw [adjustToZoom_zoom]
    cases h0 : o.proximity with
    | none =>
      unfold MatchOpts.adjustToZoom at hp
      split_ifs at hp
      · rw [h0] at hp; cases hp
      · simp [h0] at hp
    | some p0 =>
      rcases Nat.lt_or_ge z o.zoom with hlt | hge
      · obtain ⟨n, hn⟩ : ∃ n, o.zoom = z + n := ⟨o.zoom - z, by omega⟩
        have h1 := C26_point_out hn (by omega) (by omega) h0
        rw [h1] at hp
        cases hp
        obtain ⟨h2, h3⟩ := h.1 p0 h0
        rw [hn, pow_add] at h2 h3
        exact ⟨(Nat.div_lt_iff_lt_mul (by positivity)).2 h2,
          (Nat.div_lt_iff_lt_mul (by positivity)).2 h3⟩
      · obtain ⟨n, rfl⟩ : ∃ n, z = o.zoom + n := ⟨z - o.zoom, by omega⟩
        obtain ⟨q, h1, -, h2⟩ := C26_point_in (n := n) (by omega) (by omega) h0 (h.1 p0 h0)
        rw [h1] at hp
        cases hp
        exact h2
  · intro b hb
    rw [adjustToZoom_zoom]
    cases h0 : o.bbox with
    | none =>
      unfold MatchOpts.adjustToZoom at hb
      split_ifs at hb
      · rw [h0] at hb; cases hb
      · simp [h0] at hb
    | some b0 =>
      rcases Nat.lt_or_ge z o.zoom with hlt | hge
      · obtain ⟨n, hn⟩ : ∃ n, o.zoom = z + n := ⟨o.zoom - z, by omega⟩
        obtain ⟨b', h1, h2, -⟩ := C26_box_out hn (by omega) (by omega) h0
        rw [h1] at hb
        cases hb
        exact h2 (h.2 b0 h0)
      · obtain ⟨n, rfl⟩ : ∃ n, z = o.zoom + n := ⟨z - o.zoom, by omega⟩
        obtain ⟨b', h1, h2, -⟩ := C26_box_in (n := n) (by omega) (by omega) h0 (h.2 b0 h0)
        rw [h1] at hb
        cases hb
        exact h2

/-- The corners of a box stay in order. -/
theorem adjustToZoom_ordered {o : MatchOpts} (h : OptsAt o) {z : ℕ} (hz : o.zoom ≤ 15) (ht : z ≤ 15)
    (hb : ∀ b, o.bbox = some b → b.minX ≤ b.maxX ∧ b.minY ≤ b.maxY) :
    ∀ b, (o.adjustToZoom z).bbox = some b → b.minX ≤ b.maxX ∧ b.minY ≤ b.maxY := by
  intro b hob
  cases h0 : o.bbox with
  | none =>
    unfold MatchOpts.adjustToZoom at hob
    split_ifs at hob
    · rw [h0] at hob; cases hob
    · simp [h0] at hob
  | some b0 =>
    obtain ⟨hx, hy⟩ := hb b0 h0
    have key : ∀ t, TileInBox b t → b.minX ≤ b.maxX ∧ b.minY ≤ b.maxY :=
      fun t ⟨h1, h2, h3, h4⟩ => ⟨h1.trans h2, h3.trans h4⟩
    rcases Nat.lt_or_ge z o.zoom with hlt | hge
    · obtain ⟨n, hn⟩ : ∃ n, o.zoom = z + n := ⟨o.zoom - z, by omega⟩
      obtain ⟨b', h1, -, h2, -⟩ := C26_box_out hn (by omega) (by omega) h0
      rw [h1] at hob
      cases hob
      exact key _ (h2 (b0.minX, b0.minY) ⟨le_rfl, hx, le_rfl, hy⟩)
    · obtain ⟨n, rfl⟩ : ∃ n, z = o.zoom + n := ⟨z - o.zoom, by omega⟩
      obtain ⟨b', h1, -, h2⟩ := C26_box_in (n := n) (by omega) (by omega) h0 (h.2 b0 h0)
      rw [h1] at hob
      cases hob
      refine key (b0.minX * 2 ^ n, b0.minY * 2 ^ n) ((h2 _).2 ?_)
      unfold ancestorTile
      simp only
      rw [Nat.mul_div_cancel _ (Nat.two_pow_pos n), Nat.mul_div_cancel _ (Nat.two_pow_pos n)]
      exact ⟨le_rfl, hx, le_rfl, hy⟩

/-- Options at a zoom a phrase match can be looked up with. -/
structure OptsFit (chk : Bool) (o : MatchOpts) : Prop where
  wf : OptsWf o
  zoom : o.zoom ≤ 16
  box : BoxFit chk o
  checked : chk = true → OptsAt o ∧ o.zoom ≤ 15

theorem adjust_fit {env : Env} {o : MatchOpts} (h : OptsFit env.chk o) {z : ℕ} (hz : z ≤ 16)
    (hc : env.chk = true → z ≤ 15) :
    ∃ o', env.adjust o z = some o' ∧ OptsFit env.chk o' ∧ o'.zoom = z ∧ o' = o.adjustToZoom z := by
  refine ⟨o.adjustToZoom z, ?_, ⟨adjustToZoom_wf h.wf z, ?_, ?_, ?_⟩, adjustToZoom_zoom o z, rfl⟩
  · unfold Env.adjust
    split_ifs with hk
    · obtain ⟨h1, h2⟩ := h.checked hk
      have := hc hk
      exact C26_no_overflow h1 (by omega) (by omega) (by omega) (by omega)
    · rfl
  · rw [adjustToZoom_zoom]; exact hz
  · intro hk
    obtain ⟨h1, h2⟩ := h.checked hk
    exact adjustToZoom_ordered h1 h2 (hc hk) (h.box hk)
  · intro hk
    obtain ⟨h1, h2⟩ := h.checked hk
    rw [adjustToZoom_zoom]
    exact ⟨adjustToZoom_at h1 h2 (hc hk), hc hk⟩

theorem withNearbyOnly_wf {o : MatchOpts} (h : OptsWf o) : OptsWf o.withNearbyOnly := by
  unfold MatchOpts.withNearbyOnly
  split
  · exact h
  · rename_i p hp
    refine ⟨?_, h.2⟩
    intro b hb
    simp only [Option.some.injEq] at hb
    subst hb
    cases hob : o.bbox with
    | none => exact ⟨add16_lt _ _, add16_lt _ _⟩
    | some ob => exact ⟨(min_le_right _ _).trans_lt (add16_lt _ _),
        (min_le_right _ _).trans_lt (add16_lt _ _)⟩

theorem withNearbyOnly_zoom (o : MatchOpts) : o.withNearbyOnly.zoom = o.zoom := by
  unfold MatchOpts.withNearbyOnly
  split <;> rfl

theorem keyOpts_fit {chk : Bool} {o : MatchOpts} (h : OptsFit chk o) (kg : KeyWithId) :
    ∃ o', keyOpts chk kg o = some o' ∧ OptsWf o' ∧ o'.zoom = o.zoom := by
  unfold keyOpts
  split_ifs with h1 hk
  · refine ⟨o.withNearbyOnly, ?_, withNearbyOnly_wf h.wf, withNearbyOnly_zoom o⟩
    obtain ⟨h2, h3⟩ := h.checked hk
    cases hp : o.proximity with
    | none => unfold MatchOpts.withNearbyOnlyChecked MatchOpts.withNearbyOnly; rw [hp]
    | some p =>
      obtain ⟨hx, hy⟩ := C27_up_to_zoom_15 h3 (h2.1 p hp)
      obtain ⟨b', -, h4, -⟩ := C27_nearby_square_partial h.zoom hp hx hy
      exact h4
  · exact ⟨_, rfl, withNearbyOnly_wf h.wf, withNearbyOnly_zoom o⟩
  · exact ⟨o, rfl, h.wf, rfl⟩

theorem keyOpts_box {chk : Bool} {o o' : MatchOpts} (h : OptsFit chk o) {kg : KeyWithId}
    (hn : chk = true → kg.nearbyOnly = true → BoxFit true o.withNearbyOnly)
    (ho : keyOpts chk kg o = some o') : BoxFit chk o' := by
  intro hk
  subst hk
  unfold keyOpts at ho
  rw [if_pos rfl] at ho
  split_ifs at ho with h1
  · have e : o' = o.withNearbyOnly := by
      cases hp : o.proximity with
      | none =>
        unfold MatchOpts.withNearbyOnlyChecked at ho
        unfold MatchOpts.withNearbyOnly
        rw [hp] at ho ⊢
        exact (Option.some.inj ho).symm
      | some p =>
        obtain ⟨h2, h3⟩ := h.checked rfl
        obtain ⟨hx, hy⟩ := C27_up_to_zoom_15 h3 (h2.1 p hp)
        obtain ⟨b', -, h4, -⟩ := C27_nearby_square_partial h.zoom hp hx hy
        rw [h4] at ho
        exact (Option.some.inj ho).symm
    rw [e]
    exact hn rfl h1 rfl
  · cases ho
    exact h.box rfl

/-! ## One lookup -/

theorem query_fit {env : Env} {s : Store} (hs : StoreFit s) {k : KeyWithId}
    (hk : KeyFit env.chk k) {o : MatchOpts} (ho : OptsWf o) (hbf : BoxFit env.chk o)
    (hz : o.zoom ≤ 16) {n : ℕ} (hn : 1 ≤ n) :
    ∃ out, env.query s k.key o n = some out ∧ ∀ g ∈ out, g.entry.id < 2 ^ 24 := by
  obtain ⟨out, h⟩ := C24_query_returns_partial s.db hs.built s rfl env.merger env.rows
    env.chk k.key hk.start hk.largest o ho hbf (Or.inr ⟨hz, hs.radius⟩) n hn
  exact ⟨out, h, getMatching_ids hs.built.bytes h⟩

theorem mkEntry_fit {chk : Bool} {o : MatchOpts} {q : Subquery} (hz : chk = true → o.zoom = q.store.zoom)
    (pid : ℕ) {g : MatchEntry} (hg : g.entry.id < 2 ^ 24) :
    mkEntry chk o q pid g = some (toEntry g q pid) := by
  unfold mkEntry
  rw [if_neg]
  rw [Bool.and_eq_true, Bool.or_eq_true, decide_eq_true_iff, decide_eq_true_iff]
  rintro ⟨h1, h2 | h2⟩
  · exact h2 (hz h1)
  · rw [Nat.shiftLeft_eq] at h2
    omega

theorem singleLoop_fit {mk : MatchEntry → Option CoalesceEntry} (noProx : Bool)
    {l : List MatchEntry} (h : ∀ g ∈ l, ∃ e, mk g = some e) (s : SingleState) :
    ∃ s', singleLoop mk noProx s l = some s' := by
  induction l generalizing s with
  | nil => exact ⟨s, rfl⟩
  | cons g t ih =>
    obtain ⟨e, he⟩ := h g List.mem_cons_self
    have ih := ih fun g hg => h g (List.mem_cons_of_mem _ hg)
    unfold singleLoop
    rw [he, Option.bind_eq_bind, Option.bind_some]
    split
    · exact ih _
    · exact ⟨_, rfl⟩
    · exact ih _
    · exact ⟨_, rfl⟩

/-! ## `coalesce` -/

theorem Spec.RequestFit.optsFit {chk : Bool} {pms : List Subquery} {opts : MatchOpts}
    (h : RequestFit chk pms opts) : OptsFit chk opts :=
  ⟨h.wf, h.zoom, h.box, fun hk => ⟨(h.checked hk).1, (h.checked hk).2.1⟩⟩

theorem coalesceSingle_fit {env : Env} {pms : List Subquery} {opts : MatchOpts}
    (h : RequestFit env.chk pms opts) {q : Subquery} (hq : q ∈ pms)
    (hz : env.chk = true → opts.zoom = q.store.zoom) (o : IterOrder) :
    ∃ out, coalesceSingle env o q opts = some out := by
  unfold coalesceSingle singleFeatures
  cases hk : q.matchKeys with
  | nil => exact absurd hk (h.some_key q hq)
  | cons k ks =>
    obtain ⟨grids, h1, h2⟩ := query_fit (h.stores q hq)
      (h.keys q hq k (by rw [hk]; exact List.mem_cons_self)) h.wf h.box h.zoom
      (n := 2 * maxContexts) (by decide)
    obtain ⟨s', h3⟩ := singleLoop_fit (mk := mkEntry env.chk opts q 0) opts.proximity.isNone
      (fun g hg => ⟨_, mkEntry_fit hz 0 (h2 g hg)⟩) SingleState.init
    simp only [List.head?_cons, Option.bind_eq_bind, Option.bind_some, h1, h3]
    exact ⟨_, rfl⟩

theorem foldlM_fit {α β : Type} {f : β → α → Option β} {P : β → Prop} {l : List α}
    (h : ∀ b, P b → ∀ a ∈ l, ∃ b', f b a = some b' ∧ P b') {b : β} (hb : P b) :
    ∃ b', l.foldlM f b = some b' ∧ P b' := by
  induction l generalizing b with
  | nil => exact ⟨b, rfl, hb⟩
  | cons a t ih =>
    obtain ⟨b1, h1, h2⟩ := h b hb a List.mem_cons_self
    obtain ⟨b2, h3, h4⟩ := ih (fun b hb a ha => h b hb a (List.mem_cons_of_mem _ ha)) h2
    exact ⟨b2, by rw [List.foldlM_cons, h1, Option.bind_eq_bind, Option.bind_some, h3], h4⟩

theorem absorbZoom_fit {chk : Bool} {zoom : ℕ} (hz : chk = true → zoom ≤ 15)
    (m : HMap Zxy (List Context)) (c : Context) (z : ℕ) :
    ∃ c', absorbZoom chk zoom m c z = some c' := by
  unfold absorbZoom tileAbove
  rw [if_neg]
  · simp only [Option.bind_eq_bind, Option.bind_some]
    split <;> exact ⟨_, rfl⟩
  · rw [Bool.and_eq_true, decide_eq_true_iff]
    rintro ⟨h1, h2⟩
    have := hz h1
    omega

theorem multiGrid_fit {chk : Bool} {q : Subquery} (hz : chk = true → q.store.zoom ≤ 15)
    (zooms : List ℕ) (first last : Bool) {s : MultiState} (hs : s.opts.zoom = q.store.zoom)
    {g : MatchEntry} (hg : g.entry.id < 2 ^ 24) :
    ∃ s', multiGrid chk zooms q first last s g = some s' ∧ s'.opts = s.opts := by
  unfold multiGrid
  rw [mkEntry_fit (fun _ => hs) 0 hg]
  obtain ⟨c, hc, -⟩ := foldlM_fit (f := absorbZoom chk q.store.zoom s.coalesced) (P := fun _ => True)
    (l := zooms) (b := ⟨(toEntry g q 0).mask, (toEntry g q 0).entry.relev, [toEntry g q 0]⟩)
    (fun c _ z _ => (absorbZoom_fit hz s.coalesced c z).imp fun _ h => ⟨h, trivial⟩) trivial
  simp only [Option.bind_eq_bind, Option.bind_some, hc]
  split_ifs <;> exact ⟨_, rfl, rfl⟩

theorem multiStep_fit {env : Env} {pms : List Subquery} {opts : MatchOpts}
    (h : RequestFit env.chk pms opts) {q : Subquery} (hq : q ∈ pms) (o : IterOrder)
    (stack : List Subquery) {s : MultiState} (hs : OptsFit env.chk s.opts) (i : ℕ) :
    ∃ s', multiStep env o opts stack s i q = some s' ∧ OptsFit env.chk s'.opts := by
  have hz : env.chk = true → q.store.zoom ≤ 15 := fun hk => (h.checked hk).2.2 q hq
  have hopts : ∃ o', s.optsFor env opts q = some o' ∧ OptsFit env.chk o' ∧
      o'.zoom = q.store.zoom := by
    unfold MultiState.optsFor
    split_ifs with h0
    · obtain ⟨o', a1, a2, a3, -⟩ := adjust_fit h.optsFit (h.stores q hq).zoom hz
      exact ⟨o', a1, a2, a3⟩
    · exact ⟨_, rfl, hs, not_not.1 h0⟩
  obtain ⟨o', h1, h2, h3⟩ := hopts
  unfold multiStep
  cases hk : q.matchKeys with
  | nil => exact absurd hk (h.some_key q hq)
  | cons k ks =>
    obtain ⟨grids, h4, h5⟩ := query_fit (h.stores q hq)
      (h.keys q hq k (by rw [hk]; exact List.mem_cons_self)) h2.wf h2.box h2.zoom
      (n := maxGridsPerPhrase) (by decide)
    obtain ⟨s', h6, h7⟩ := foldlM_fit (P := fun s : MultiState => s.opts = o')
      (f := multiGrid env.chk (compatibleZooms stack q) q (i == 0) (i + 1 == stack.length))
      (l := grids.take maxGridsPerPhrase) (b := { s with opts := o' })
      (fun s hs g hg => by
        obtain ⟨s', e1, e2⟩ := multiGrid_fit hz (compatibleZooms stack q) (i == 0)
          (i + 1 == stack.length) (s := s) (by rw [hs]; exact h3)
          (h5 g (List.mem_of_mem_take hg))
        exact ⟨s', e1, e2.trans hs⟩) rfl
    simp only [Option.bind_eq_bind, List.head?_cons, Option.bind_some, h1, h4, h6]
    refine ⟨_, rfl, ?_⟩
    show OptsFit env.chk s'.opts
    rw [h7]
    exact h2

theorem multiLoop_fit {env : Env} {pms : List Subquery} {opts : MatchOpts}
    (h : RequestFit env.chk pms opts) (os : ℕ → IterOrder) (stack : List Subquery)
    {l : List Subquery} (hl : ∀ q ∈ l, q ∈ pms) (i : ℕ) {s : MultiState}
    (hs : OptsFit env.chk s.opts) : ∃ s', multiLoop env os opts stack i l s = some s' := by
  induction l generalizing i s with
  | nil => exact ⟨s, rfl⟩
  | cons q t ih =>
    obtain ⟨s1, h1, h2⟩ := multiStep_fit h (hl q List.mem_cons_self) (os i) stack hs i
    obtain ⟨s2, h3⟩ := ih (fun q hq => hl q (List.mem_cons_of_mem _ hq)) (i + 1) h2
    exact ⟨s2, by unfold multiLoop; rw [h1, Option.bind_eq_bind, Option.bind_some, h3]⟩

theorem coalesceMulti_fit {env : Env} {stack : List Subquery} {opts : MatchOpts}
    (h : RequestFit env.chk stack opts) (os : ℕ → IterOrder) :
    ∃ out, coalesceMulti env os stack opts = some out := by
  unfold coalesceMulti
  obtain ⟨s', h1⟩ := multiLoop_fit h os (stack.insertionSort fun a b => a.stackKey ≤ b.stackKey)
    (l := stack.insertionSort fun a b => a.stackKey ≤ b.stackKey)
    (fun q hq => (List.perm_insertionSort _ _).subset hq) 0 (s := ⟨[], [], [], 0, opts⟩) h.optsFit
  simp only [Option.bind_eq_bind, h1, Option.bind_some]
  exact ⟨_, rfl⟩

/-! ## `tree_coalesce` -/

theorem mapM_fit {α β : Type} {f : α → Option β} {l : List α} (h : ∀ a ∈ l, ∃ b, f a = some b) :
    ∃ l', l.mapM f = some l' := by
  induction l with
  | nil => exact ⟨[], rfl⟩
  | cons a t ih =>
    obtain ⟨b, hb⟩ := h a List.mem_cons_self
    obtain ⟨t', ht⟩ := ih fun a ha => h a (List.mem_cons_of_mem _ ha)
    exact ⟨b :: t', by rw [List.mapM_cons, hb, ht]; rfl⟩

/-- A step of the tree that can be taken. -/
structure StepFit (env : TreeEnv) (t : StackTree) (pms : List Subquery) (opts : MatchOpts) (s : Step) : Prop where
  path : ∃ above, TreePath t t.root (above ++ [s.node])
  pm : s.node.pm = some s.q
  mem : s.q ∈ pms
  fit : OptsFit env.chk s.opts
  opts_eq : s.opts = opts.adjustToZoom s.q.store.zoom
  at_zoom : s.opts.zoom = s.q.store.zoom
  prev : env.chk = true → s.prevZoom ≤ s.q.store.zoom

theorem isRangeKey_fit {chk : Bool} {k : KeyWithId} (h : KeyFit chk k) :
    ∃ b, isRangeKey chk k.key.phrase = some b := by
  cases hp : k.key.phrase with
  | exact id => exact ⟨_, rfl⟩
  | range a b =>
    unfold isRangeKey
    simp only
    rw [if_neg]
    · exact ⟨_, rfl⟩
    · rw [Bool.and_eq_true, decide_eq_true_iff]
      rintro ⟨h1, h2⟩
      have := h.ordered h1 a b hp
      omega

theorem considerKey_fit {env : TreeEnv} (cache : HMap ℕ (List MatchEntry)) (contexts : List Context)
    {step : Step} (ho : OptsFit env.chk step.opts) (single : Bool) (f : Fill) {kg : KeyWithId}
    (hk : KeyFit env.chk kg) : ∃ f', considerKey env cache contexts step single f kg = some f' := by
  unfold considerKey
  obtain ⟨o', h1, -⟩ := keyOpts_fit ho kg
  obtain ⟨b, h2⟩ := isRangeKey_fit hk
  rw [h1, h2]
  simp only [Option.bind_eq_bind, Option.bind_some]
  split_ifs <;> exact ⟨_, rfl⟩

theorem fillChunk_fit {env : TreeEnv} {t : StackTree} {pms : List Subquery} {opts : MatchOpts}
    (h : RequestFit env.chk pms opts) (cache : HMap ℕ (List MatchEntry)) (contexts : List Context)
    (n : ℕ) {f : Fill} (hf : ∀ s ∈ f.steps, StepFit env t pms opts s) :
    ∃ f', fillChunk env cache contexts n f = some f' := by
  induction n generalizing f with
  | zero => exact ⟨f, rfl⟩
  | succ n ih =>
    unfold fillChunk
    split_ifs with h1
    · exact ⟨f, rfl⟩
    · cases hp : env.steps.peekMax f.steps with
      | none => exact ⟨f, rfl⟩
      | some step =>
        simp only
        split_ifs with h2
        · exact ⟨_, rfl⟩
        · have hs := hf step (env.steps.peekMax_mem _ _ hp)
          obtain ⟨f1, h3, -⟩ := foldlM_fit (P := fun _ => True)
            (f := considerKey env cache contexts step step.isSingle) (l := step.q.matchKeys)
            (b := { f with steps := env.steps.popMax f.steps, enqueued := false })
            (fun f _ kg hkg => (considerKey_fit cache contexts hs.fit step.isSingle f
              (h.keys _ hs.mem kg hkg)).imp fun _ h => ⟨h, trivial⟩) trivial
          rw [h3, Option.bind_eq_bind, Option.bind_some]
          refine ih ?_
          intro s hs
          have h4 := (considerKeys_considered (fun _ h => h) h3).steps
          have h5 : s ∈ env.steps.popMax f.steps := by
            have h6 : s ∈ f1.steps := hs
            rw [h4] at h6
            exact h6
          exact hf s ((env.steps.popMax_perm _ _ hp).subset (List.mem_cons_of_mem _ h5))

theorem fetchKey_fit {env : TreeEnv} {t : StackTree} {pms : List Subquery} {opts : MatchOpts}
    (h : RequestFit env.chk pms opts) (ht : TreeFit env.chk pms opts) {s : Step} (hs : StepFit env t pms opts s) {k : FetchKey}
    (hk : KeyOf env.chk s k) :
    ∃ r, fetchKey env k = some r ∧
      ∀ id data, r = .multi id data → ∀ g ∈ data, g.entry.id < 2 ^ 24 := by
  obtain ⟨kg, q, o, single⟩ := k
  obtain ⟨e1, hkg, ho, -⟩ := hk
  simp only at e1 hkg ho
  subst e1
  obtain ⟨o', h1, h2, h3⟩ := keyOpts_fit hs.fit kg
  rw [h1, Option.some.injEq] at ho
  subst ho
  have hbf : BoxFit env.chk o' := keyOpts_box hs.fit (fun hk hnb => by
    rw [hs.opts_eq]; exact (ht hk).2.2 _ hs.mem kg hkg hnb _ hs.mem) h1
  have hz : o'.zoom ≤ 16 := by rw [h3]; exact hs.fit.zoom
  have hkf := h.keys _ hs.mem kg hkg
  have hst := h.stores _ hs.mem
  unfold fetchKey
  simp only
  split_ifs with hsg
  · obtain ⟨grids, h4, h5⟩ := query_fit hst hkf h2 hbf hz (n := 2 * maxContexts) (by decide)
    obtain ⟨s', h6⟩ := singleLoop_fit (mk := mkEntry env.chk o' s.q kg.id) o'.proximity.isNone
      (fun g hg => ⟨_, mkEntry_fit (fun _ => h3.trans hs.at_zoom) kg.id (h5 g hg)⟩) SingleState.init
    unfold treeSingle
    simp only [Option.bind_eq_bind, h4, h6, Option.bind_some]
    exact ⟨_, rfl, fun id data he => by cases he⟩
  · obtain ⟨grids, h4, h5⟩ := query_fit hst hkf h2 hbf hz (n := maxGridsPerPhrase) (by decide)
    simp only [Option.bind_eq_bind, h4, Option.bind_some]
    refine ⟨_, rfl, ?_⟩
    intro id data he
    cases he
    intro g hg
    exact h5 g (List.mem_of_mem_take (mem_keepFirst hg))

/-- All ids in the cache are ids an index can hold. -/
def CacheFit (cache : HMap ℕ (List MatchEntry)) : Prop :=
  ∀ p ∈ cache, ∀ g ∈ p.2, g.entry.id < 2 ^ 24

theorem absorb_fit {env : TreeEnv} {rs : List Fetched}
    (h : ∀ r ∈ rs, ∀ id data, r = .multi id data → ∀ g ∈ data, g.entry.id < 2 ^ 24)
    {s : List Context × HMap ℕ (List MatchEntry)} (hs : CacheFit s.2) :
    CacheFit (rs.foldl (absorbFetched env) s).2 := by
  induction rs generalizing s with
  | nil => exact hs
  | cons r t ih =>
    rw [List.foldl_cons]
    refine ih (fun r hr => h r (List.mem_cons_of_mem _ hr)) ?_
    cases r with
    | single cs => exact hs
    | multi id data =>
      have hd := h _ List.mem_cons_self id data rfl
      exact HMap.forall_upsert (P := fun _ (data : List MatchEntry) =>
        ∀ g ∈ data, g.entry.id < 2 ^ 24) hs hd fun _ _ => hd

theorem scale_fit {chk : Bool} {zoom prevZoom : ℕ} (h : chk = true → prevZoom ≤ zoom ∧ zoom ≤ 15) :
    ∃ sc, scaleFactor chk zoom prevZoom = some sc := by
  unfold scaleFactor
  split_ifs with h1 h2
  · exact ⟨_, rfl⟩
  · have := h h1
    exact absurd ⟨this.1, by omega⟩ h2
  · exact ⟨_, rfl⟩

theorem childBoxes_fit {chk : Bool} {s : Store} {zoom : ℕ}
    (h : chk = true → (∀ b ∈ s.bboxes, BoxAt s.zoom b) ∧ s.zoom ≤ 15 ∧ zoom ≤ 15) :
    ∃ bs, childBoxes chk s zoom = some bs := by
  unfold childBoxes
  split_ifs with h1 h2
  · exact ⟨_, rfl⟩
  · obtain ⟨h3, h4, h5⟩ := h h2
    exact mapM_fit fun b hb => ⟨_, adjustBBoxZoomChecked_eq (h3 b hb) h1 (by omega) (by omega)
      (by omega) (by omega)⟩
  · exact ⟨_, rfl⟩

/-- What a path in the tree says about its last nodes. -/
theorem path_last {sm : ℕ} {pms : List Subquery} {t : StackTree}
    (h : stackableWith sm pms = some t) {p : List StackNode} {n : StackNode}
    (hp : TreePath t t.root (p ++ [n])) : ∃ q, n.pm = some q ∧ q ∈ pms ∧
      ∀ m, p.getLast? = some m → ∀ q', m.pm = some q' → q'.store.typeId < q.store.typeId := by
  obtain ⟨qs, h1, h2, h3, -⟩ := C30_paths_are_stacks h hp
  rw [List.map_append, List.map_singleton] at h1
  obtain ⟨qs', q, rfl⟩ : ∃ qs' q, qs = qs' ++ [q] := by
    rcases List.eq_nil_or_concat qs with rfl | ⟨l, a, rfl⟩
    · simp at h1
    · exact ⟨l, a, by simp⟩
  rw [List.map_append, List.map_singleton] at h1
  obtain ⟨h4, h5⟩ := List.append_inj' h1 rfl
  refine ⟨q, by simpa using h5, h2 q (by simp), ?_⟩
  intro m hm q' hq'
  have h6 : m ∈ p := List.mem_of_getLast? hm
  have h7 : some q' ∈ qs'.map some := by
    rw [← h4, ← hq']
    exact List.mem_map_of_mem h6
  obtain ⟨q'', h8, h9⟩ := List.mem_map.1 h7
  cases h9
  rw [List.pairwise_append] at h3
  exact h3.2.2 q' h8 q (by simp)

theorem newStep_fit {env : TreeEnv} {t : StackTree} {pms : List Subquery} {opts : MatchOpts}
    (h : RequestFit env.chk pms opts) {ix : ℕ} {node : StackNode} {q : Subquery} (hq : q ∈ pms)
    (hn : node.pm = some q) {above : List StackNode} (hp : TreePath t t.root (above ++ [node]))
    (prev : Option (List Context)) {prevZoom : ℕ}
    (hz : env.chk = true → prevZoom ≤ q.store.zoom) (possible : F64) :
    ∃ s, newStep env.toEnv opts ix node q prev prevZoom possible = some s ∧
      StepFit env t pms opts s := by
  obtain ⟨o', h1, h2, h3, h4⟩ := adjust_fit (env := env.toEnv) h.optsFit (h.stores q hq).zoom
    fun hk => (h.checked hk).2.2 q hq
  unfold newStep
  rw [h1, Option.bind_eq_bind, Option.bind_some]
  exact ⟨_, rfl, ⟨above, hp⟩, hn, hq, h2, h4, h3, hz⟩

theorem nextStep_fit {env : TreeEnv} {t : StackTree} {pms : List Subquery} {opts : MatchOpts}
    (h : RequestFit env.chk pms opts) (ht : TreeFit env.chk pms opts) {sm : ℕ}
    (htree : stackableWith sm pms = some t) {step : Step} (hs : StepFit env t pms opts step)
    (state : List Context) (best : F64) {c : ℕ} (hc : c ∈ step.node.children) :
    ∃ os, nextStep env t opts step state best c = some os ∧ ∀ s ∈ os, StepFit env t pms opts s := by
  unfold nextStep
  cases hg : t.arena.get c with
  | none => exact ⟨none, rfl, by simp⟩
  | some child =>
    obtain ⟨above, hp⟩ := hs.path
    have hp' : TreePath t t.root ((above ++ [step.node]) ++ [child]) := by
      rw [treePath_append]
      refine ⟨hp, ?_⟩
      rw [List.getLast?_concat, Option.getD_some]
      exact ⟨⟨c, hc, hg⟩, trivial⟩
    obtain ⟨q, hq1, hq2, hq3⟩ := path_last htree hp'
    have hlt := hq3 step.node List.getLast?_concat step.q hs.pm
    obtain ⟨bs, hbs⟩ := childBoxes_fit (chk := env.chk) (s := q.store) (zoom := step.q.store.zoom)
      fun hk => ⟨(ht hk).2.1 q hq2, (h.checked hk).2.2 q hq2, (h.checked hk).2.2 _ hs.mem⟩
    simp only [hq1, Option.bind_eq_bind, Option.bind_some, hbs]
    split_ifs
    · obtain ⟨s, h1, h2⟩ := newStep_fit h hq2 hq1 hp' (some state) (ix := c)
        (prevZoom := step.q.store.zoom)
        (fun hk => ((ht hk).1 step.q hs.mem q hq2 hlt).1) (best + q.weight)
      refine ⟨some s, by rw [h1]; rfl, ?_⟩
      intro s' hs'
      cases hs'
      exact h2
    · exact ⟨none, rfl, by simp⟩

theorem expandStep_fit {env : TreeEnv} {t : StackTree} {pms : List Subquery} {opts : MatchOpts}
    (h : RequestFit env.chk pms opts) (ht : TreeFit env.chk pms opts) {sm : ℕ}
    (htree : stackableWith sm pms = some t) {cache : HMap ℕ (List MatchEntry)}
    (hcache : CacheFit cache) {step : Step} (hs : StepFit env t pms opts step) :
    ∃ r, expandStep env t opts cache step = some r ∧ ∀ s ∈ r.2, StepFit env t pms opts s := by
  obtain ⟨sc, hsc⟩ := scale_fit (chk := env.chk) (zoom := step.q.store.zoom)
    (prevZoom := step.prevZoom) fun hk => ⟨hs.prev hk, (h.checked hk).2.2 _ hs.mem⟩
  obtain ⟨groups, hg⟩ := mapM_fit (f := expandKey env cache step sc) (l := step.q.matchKeys) (by
    intro kg hkg
    unfold expandKey
    cases hf : HMap.find kg.id cache with
    | none => exact ⟨_, rfl⟩
    | some grids =>
      obtain ⟨es, hes⟩ := mapM_fit (f := mkEntry env.chk step.opts step.q kg.id) (l := grids)
        fun g hgm => ⟨_, mkEntry_fit (fun _ => hs.at_zoom) kg.id
          (hcache _ (HMap.mem_of_find hf) g hgm)⟩
      exact ⟨es.flatMap (newContexts env.bush step sc), by simp only [hes, Option.map_some]⟩)
  have hnext : ∃ ss, nextSteps env t opts step groups = some ss ∧
      ∀ s ∈ ss, StepFit env t pms opts s := by
    unfold nextSteps
    split_ifs with h0
    · exact ⟨[], rfl, by simp⟩
    · obtain ⟨os, hos⟩ := mapM_fit (l := step.node.children)
        (f := nextStep env t opts step (stateContexts step groups) (bestRelev groups.flatten))
        fun c hc => (nextStep_fit h ht htree hs _ _ hc).imp fun _ h => h.1
      refine ⟨os.filterMap id, by rw [hos]; rfl, ?_⟩
      intro s hsm
      obtain ⟨o, ho, rfl⟩ := List.mem_filterMap.1 hsm
      obtain ⟨c, hc, hcs⟩ := mapM_mem hos _ ho
      obtain ⟨os', h1, h2⟩ := nextStep_fit h ht htree hs (stateContexts step groups)
        (bestRelev groups.flatten) hc
      have e := hcs.symm.trans h1
      rw [Option.some.injEq] at e
      exact h2 s (by rw [← e]; rfl)
  obtain ⟨ss, hss1, hss2⟩ := hnext
  unfold expandStep
  simp only [hsc, hg, hss1, Option.bind_eq_bind, Option.bind_some]
  exact ⟨_, rfl, hss2⟩

/-- A state of the loop that can go on. -/
structure StateFit (env : TreeEnv) (t : StackTree) (pms : List Subquery) (opts : MatchOpts)
    (s : TreeState) : Prop where
  steps : ∀ st ∈ s.steps, StepFit env t pms opts st
  cache : CacheFit s.cache

theorem treeRound_fit {env : TreeEnv} {t : StackTree} {pms : List Subquery} {opts : MatchOpts}
    (h : RequestFit env.chk pms opts) (ht : TreeFit env.chk pms opts) {sm : ℕ}
    (htree : stackableWith sm pms = some t) {s : TreeState} (hs : StateFit env t pms opts s) :
    ∃ s', treeRound env t opts s = some s' ∧ StateFit env t pms opts s' := by
  obtain ⟨f, hf⟩ := fillChunk_fit h s.cache s.contexts s.steps.length
    (f := ⟨s.steps, s.counts, [], [], false, [], 0, [], none⟩) hs.steps
  obtain ⟨taken, hfl⟩ := fillChunk_filled rfl hf
  obtain ⟨new, hn1, hn2⟩ := hfl.keys
  have hkeys : ∀ k ∈ f.keys, ∃ r, fetchKey env k = some r ∧
      ∀ id data, r = .multi id data → ∀ g ∈ data, g.entry.id < 2 ^ 24 := by
    intro k hk
    rw [hn1] at hk
    obtain ⟨st, hst, hko⟩ := hn2 k hk
    exact fetchKey_fit h ht (hs.steps st (hfl.steps.symm.subset (List.mem_append_left _ hst))) hko
  obtain ⟨rs, hrs⟩ := mapM_fit fun k hk => (hkeys k hk).imp fun _ h => h.1
  have hcache : CacheFit (rs.foldl (absorbFetched env) (s.contexts, s.cache)).2 := by
    refine absorb_fit ?_ hs.cache
    intro r hr
    obtain ⟨k, hk, hkr⟩ := mapM_mem hrs r hr
    obtain ⟨r', h1, h2⟩ := hkeys k hk
    rw [hkr, Option.some.injEq] at h1
    subst h1
    exact h2
  have hchunk : ∀ st ∈ f.chunk, StepFit env t pms opts st := by
    intro st hst
    have hc := hfl.chunk
    rw [List.nil_append] at hc
    rw [hc] at hst
    exact hs.steps st (hfl.steps.symm.subset
      (List.mem_append_left _ (List.mem_of_mem_filter hst)))
  obtain ⟨ex, hex⟩ := mapM_fit (f := expandStep env t opts
      (rs.foldl (absorbFetched env) (s.contexts, s.cache)).2)
    fun st hst => (expandStep_fit h ht htree hcache (hchunk st hst)).imp fun _ h => h.1
  unfold treeRound TreeState.fill
  simp only [hf, hrs, hex, Option.bind_eq_bind, Option.bind_some]
  refine ⟨_, rfl, ?_, hcache⟩
  intro st hst
  rcases List.mem_append.1 ((pushAll_perm env.steps _ _).subset hst) with hst | hst
  · obtain ⟨r, hr, hst⟩ := List.mem_flatMap.1 hst
    obtain ⟨st', hst', he⟩ := mapM_mem hex r hr
    obtain ⟨r', h1, h2⟩ := expandStep_fit h ht htree hcache (hchunk st' hst')
    rw [he, Option.some.injEq] at h1
    subst h1
    exact h2 st hst
  · exact hs.steps st (hfl.steps.symm.subset
      (List.mem_append_right _ (List.mem_append_right _ hst)))

theorem treeLoop_fit {env : TreeEnv} {t : StackTree} {pms : List Subquery} {opts : MatchOpts}
    (h : RequestFit env.chk pms opts) (ht : TreeFit env.chk pms opts) {sm : ℕ}
    (htree : stackableWith sm pms = some t) (n : ℕ) {s : TreeState} (hs : StateFit env t pms opts s) :
    ∃ s', treeLoop env t opts n s = some s' := by
  induction n generalizing s with
  | zero => exact ⟨s, rfl⟩
  | succ n ih =>
    unfold treeLoop
    split_ifs
    · exact ⟨s, rfl⟩
    · obtain ⟨s1, h1, h2⟩ := treeRound_fit h ht htree hs
      obtain ⟨s2, h3⟩ := ih h2
      exact ⟨s2, by rw [h1, Option.bind_some, h3]⟩

theorem treeCoalesce_fit {env : TreeEnv} {t : StackTree} {pms : List Subquery} {opts : MatchOpts}
    (h : RequestFit env.chk pms opts) (ht : TreeFit env.chk pms opts) {sm : ℕ}
    (htree : stackableWith sm pms = some t) : ∃ out, treeCoalesce env t opts = some out := by
  have hstep : ∀ c ∈ t.root.children, ∀ node, t.arena.get c = some node →
      ∃ q s, node.pm = some q ∧ newStep env.toEnv opts c node q none 0 q.weight = some s ∧
        StepFit env t pms opts s := by
    intro c hc node hg
    have hp : TreePath t t.root ([] ++ [node]) := ⟨⟨c, hc, hg⟩, trivial⟩
    obtain ⟨q, h1, h2, -⟩ := path_last htree hp
    obtain ⟨s, h3, h4⟩ := newStep_fit h h2 h1 hp none (ix := c) (prevZoom := 0)
      (fun _ => Nat.zero_le _) q.weight
    exact ⟨q, s, h1, h3, h4⟩
  have hfirst : ∃ ss, firstSteps env t opts = some ss ∧ ∀ s ∈ ss, StepFit env t pms opts s := by
    have key : ∀ f : ℕ → Option (Option Step), (∀ c, t.arena.get c = none → f c = some none) →
        (∀ c node, t.arena.get c = some node → f c = node.pm.bind fun q =>
          (newStep env.toEnv opts c node q none 0 q.weight).map some) →
        ∃ ss, (t.root.children.mapM f).map (fun (l : List (Option Step)) => l.filterMap id) =
          some ss ∧ ∀ s ∈ ss, StepFit env t pms opts s := by
      intro f hf1 hf2
      have hall : ∀ c ∈ t.root.children, ∃ o, f c = some o ∧ ∀ s, o = some s →
          StepFit env t pms opts s := by
        intro c hc
        cases hg : t.arena.get c with
        | none => exact ⟨none, hf1 c hg, by simp⟩
        | some node =>
          obtain ⟨q, s, h1, h2, h3⟩ := hstep c hc node hg
          refine ⟨some s, by rw [hf2 c node hg, h1, Option.bind_some, h2, Option.map_some], ?_⟩
          intro s' hs'
          cases hs'
          exact h3
      obtain ⟨os, hos⟩ := mapM_fit fun c hc => (hall c hc).imp fun _ h => h.1
      refine ⟨os.filterMap id, by rw [hos]; rfl, ?_⟩
      intro s hs
      obtain ⟨o, ho, rfl⟩ := List.mem_filterMap.1 hs
      obtain ⟨c, hc, hcs⟩ := mapM_mem hos _ ho
      obtain ⟨o', h1, h2⟩ := hall c hc
      rw [hcs, Option.some.injEq] at h1
      exact h2 s h1.symm
    refine key _ (fun c h => ?_) (fun c node h => ?_)
    · simp only [h]
    · simp only [h]
  obtain ⟨ss, hss1, hss2⟩ := hfirst
  have hroot : t.root.pm = none := by
    obtain ⟨K, hK⟩ := stackable_ghost htree
    exact hK.same.1
  have hinit : ∃ s, treeInit env t opts = some s ∧ StateFit env t pms opts s := by
    unfold treeInit
    rw [hroot, hss1]
    simp only [Option.isSome_none, Bool.and_false, Bool.false_eq_true, if_false, Option.map_some]
    refine ⟨_, rfl, ?_, ?_⟩
    · intro st hst
      rcases List.mem_append.1 ((pushAll_perm env.steps _ _).subset hst) with hst | hst
      · exact hss2 st hst
      · cases hst
    · intro p hp
      cases hp
  obtain ⟨s, h1, h2⟩ := hinit
  obtain ⟨s', h3⟩ := treeLoop_fit h ht htree t.arena.nodes.length h2
  unfold treeCoalesce
  simp only [h1, h3, Option.bind_eq_bind, Option.bind_some]
  exact ⟨_, rfl⟩

end Carmen
