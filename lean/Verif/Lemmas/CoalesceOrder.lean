import Verif.Lemmas.CoalesceMulti

/-!
# Hash order in `coalesce`
-/

namespace Carmen
open Spec

/-! ## One phrase match -/

theorem singleKey_id {a b : CoalesceEntry}
    (h : (singleContext a).singleKey = (singleContext b).singleKey) : a.entry.id = b.entry.id := by
  have h' := congrArg (fun x => (ofLex (ofLex (ofLex (ofLex x).2).2).2).2) h
  exact h'

theorem collected_pairwise {made : CoalesceEntry → Prop} {m : HMap ℕ CoalesceEntry}
    (h : Collected made m) :
    m.Pairwise fun a b => ∀ x ∈ [singleContext a.2], ∀ y ∈ [singleContext b.2],
      x.singleKey ≠ y.singleKey := by
  have h1 : m.Pairwise fun a b => a.1 ≠ b.1 := List.pairwise_map.1 h.wf
  refine (List.pairwise_iff_forall_sublist.2 ?_)
  intro a b hab x hx y hy
  rw [List.mem_singleton] at hx hy
  subst hx hy
  intro hk
  have hid := singleKey_id hk
  have ha : a ∈ m := hab.subset (by simp)
  have hb : b ∈ m := hab.subset (by simp)
  rw [h.key a ha, h.key b hb] at hid
  exact List.pairwise_iff_forall_sublist.1 h1 hab hid

/-- The order in which the collected features are visited does not matter. -/
theorem collected_order {made : CoalesceEntry → Prop} {m : HMap ℕ CoalesceEntry}
    (h : Collected made m) (o o' : IterOrder) :
    (((o.run m).map fun p => singleContext p.2).insertionSort fun a b => b.singleKey ≤ a.singleKey) =
      ((o'.run m).map fun p => singleContext p.2).insertionSort
        fun a b => b.singleKey ≤ a.singleKey := by
  refine insertionSort_desc_congr Context.singleKey ?_
  intro k
  have hmap : ∀ l : List (ℕ × CoalesceEntry),
      (l.map fun p => singleContext p.2) = l.flatMap fun p => [singleContext p.2] := by
    intro l
    induction l with
    | nil => rfl
    | cons a t ih => simp [ih]
  rw [hmap, hmap, ← filter_flatMap_perm Context.singleKey _ (o.perm m).symm (collected_pairwise h) k,
    ← filter_flatMap_perm Context.singleKey _ (o'.perm m).symm (collected_pairwise h) k]

/-! ## Maps with the same content -/

theorem HMap.perm_of_find {K V : Type} [DecidableEq K] {m m' : HMap K V}
    (h : HMap.Wf m) (h' : HMap.Wf m') (heq : ∀ k, HMap.find k m = HMap.find k m') :
    m.Perm m' := by
  refine (List.perm_ext_iff_of_nodup (List.Nodup.of_map _ h) (List.Nodup.of_map _ h')).2 ?_
  rintro ⟨k, v⟩
  rw [HMap.mem_iff_find h, HMap.mem_iff_find h', heq]

theorem HMap.find_perm {K V : Type} [DecidableEq K] {m m' : HMap K V}
    (h : HMap.Wf m) (hp : m.Perm m') (k : K) : HMap.find k m = HMap.find k m' := by
  have h' := HMap.wf_of_perm hp h
  cases hf : HMap.find k m with
  | none =>
    cases hf' : HMap.find k m' with
    | none => rfl
    | some v =>
      have := (HMap.mem_iff_find h).1 (hp.mem_iff.2 (HMap.mem_of_find hf'))
      rw [hf] at this
      cases this
  | some v => exact ((HMap.mem_iff_find h').1 (hp.mem_iff.1 (HMap.mem_of_find hf))).symm

theorem find_foldl_append {V : Type} {K : Type} [DecidableEq K] {l : List (K × List V)}
    (hl : HMap.Wf l) (m : HMap K (List V)) (k : K) :
    HMap.find k (l.foldl (fun m p => HMap.upsert p.1 [] (· ++ p.2) m) m) =
      match HMap.find k l with
      | none => HMap.find k m
      | some cs => some ((HMap.find k m).getD [] ++ cs) := by
  induction l generalizing m with
  | nil => rfl
  | cons p t ih =>
    obtain ⟨k', cs⟩ := p
    have hnd := List.nodup_cons.1 hl
    rw [List.foldl_cons, ih hnd.2, HMap.find_upsert]
    by_cases hk : k = k'
    · subst hk
      have : HMap.find k t = none := by
        cases hf : HMap.find k t with
        | none => rfl
        | some v =>
          exact absurd (HMap.mem_keys_iff.2 (by rw [hf]; rfl)) hnd.1
      rw [this]
      simp [HMap.find]
    · simp [HMap.find, hk]

/-! ## Several phrase matches -/

theorem absorbZoom_congr {chk : Bool} {zoom : ℕ} {m m' : HMap Zxy (List Context)}
    (h : ∀ z, HMap.find z m = HMap.find z m') :
    absorbZoom chk zoom m = absorbZoom chk zoom m' := by
  funext c oz
  unfold absorbZoom
  congr 1
  funext z
  rw [h]

/-- The state with another representation of the map of contexts. -/
def MultiState.withMap (m : HMap Zxy (List Context)) (s : MultiState) : MultiState :=
  { s with coalesced := m }

theorem multiGrid_congr {chk : Bool} {zooms : List ℕ} {q : Subquery} {first last : Bool}
    {s : MultiState} {m : HMap Zxy (List Context)} (h : ∀ z, HMap.find z s.coalesced = HMap.find z m)
    (g : MatchEntry) :
    multiGrid chk zooms q first last (s.withMap m) g =
      (multiGrid chk zooms q first last s g).map (MultiState.withMap m) ∧
    ∀ s', multiGrid chk zooms q first last s g = some s' → s'.coalesced = s.coalesced := by
  unfold multiGrid
  have hc : absorbZoom chk q.store.zoom (s.withMap m).coalesced =
      absorbZoom chk q.store.zoom s.coalesced := absorbZoom_congr (fun z => (h z).symm)
  rw [hc]
  show (mkEntry chk s.opts q 0 g >>= _) = _ ∧ _
  cases mkEntry chk s.opts q 0 g with
  | none => simp
  | some e =>
    simp only [Option.bind_eq_bind, Option.bind_some]
    cases List.foldlM (absorbZoom chk q.store.zoom s.coalesced)
        ⟨e.mask, e.entry.relev, [e]⟩ zooms with
    | none => simp
    | some c =>
      simp only [Option.bind_some]
      show (if last = true then _ else _) = _ ∧ _
      have hm : (s.withMap m).maxRelev = s.maxRelev := rfl
      have hctx : (s.withMap m).contexts = s.contexts := rfl
      have hadd : (s.withMap m).toAdd = s.toAdd := rfl
      have hopt : (s.withMap m).opts = s.opts := rfl
      rw [hm, hctx, hadd, hopt]
      generalize (if s.maxRelev.flt c.relev = true then c.relev else s.maxRelev) = mr
      split_ifs
      · exact ⟨rfl, fun s' h => by cases h; rfl⟩
      · exact ⟨rfl, fun s' h => by cases h; rfl⟩
      · exact ⟨rfl, fun s' h => by cases h; rfl⟩
      · exact ⟨rfl, fun s' h => by cases h; rfl⟩

theorem multiGrids_congr {chk : Bool} {zooms : List ℕ} {q : Subquery} {first last : Bool}
    {s : MultiState} {m : HMap Zxy (List Context)} (h : ∀ z, HMap.find z s.coalesced = HMap.find z m)
    (grids : List MatchEntry) :
    grids.foldlM (multiGrid chk zooms q first last) (s.withMap m) =
      (grids.foldlM (multiGrid chk zooms q first last) s).map (MultiState.withMap m) ∧
    ∀ s', grids.foldlM (multiGrid chk zooms q first last) s = some s' →
      s'.coalesced = s.coalesced := by
  induction grids generalizing s with
  | nil => exact ⟨rfl, fun s' h => by cases h; rfl⟩
  | cons g t ih =>
    rw [List.foldlM_cons, List.foldlM_cons]
    obtain ⟨h1, h2⟩ := multiGrid_congr (chk := chk) (zooms := zooms) (q := q) (first := first)
      (last := last) h g
    rw [h1]
    cases hg : multiGrid chk zooms q first last s g with
    | none => exact ⟨rfl, fun s' h => by cases h⟩
    | some s1 =>
      have hs1 := h2 s1 hg
      obtain ⟨h3, h4⟩ := ih (s := s1) (by intro z; rw [hs1]; exact h z)
      exact ⟨h3, fun s' h' => by rw [h4 s' h', hs1]⟩

/-- States that differ only in the representation of the map of contexts. -/
structure SameState (s s' : MultiState) : Prop where
  eq : s' = s.withMap s'.coalesced
  find : ∀ z, HMap.find z s.coalesced = HMap.find z s'.coalesced

theorem SameState.refl (s : MultiState) : SameState s s := ⟨rfl, fun _ => rfl⟩

theorem moveOver_same {s s' : MultiState} (h : SameState s s') (hw : HMap.Wf s.toAdd)
    (o o' : IterOrder) : SameState (moveOver o s) (moveOver o' s') := by
  have ha : s'.toAdd = s.toAdd := by rw [h.eq]; rfl
  refine ⟨?_, ?_⟩
  · unfold moveOver MultiState.withMap
    rw [h.eq]
    rfl
  · intro z
    show HMap.find z ((o.run s.toAdd).foldl _ s.coalesced) =
      HMap.find z ((o'.run s'.toAdd).foldl _ s'.coalesced)
    rw [ha, find_foldl_append (HMap.wf_of_perm (o.perm _).symm hw),
      find_foldl_append (HMap.wf_of_perm (o'.perm _).symm hw), h.find,
      ← HMap.find_perm hw (o.perm _).symm, ← HMap.find_perm hw (o'.perm _).symm]

/-- Both runs panic, or both reach states that differ only in a representation. -/
def SameOpt (a b : Option MultiState) : Prop :=
  (a = none ∧ b = none) ∨ ∃ s s', a = some s ∧ b = some s' ∧ SameState s s'

theorem multiStep_same {env : Env} {opts : MatchOpts} {stack : List Subquery} {q : Subquery}
    (hq : q ∈ stack) {o o' : IterOrder} {i : ℕ} {s s' : MultiState} (h : SameState s s')
    (hs : MultiInv env opts (fun _ _ => True) s) :
    SameOpt (multiStep env o opts stack s i q) (multiStep env o' opts stack s' i q) := by
  have hopt : s'.optsFor env opts q = s.optsFor env opts q := by rw [h.eq]; rfl
  unfold multiStep
  rw [hopt]
  cases hadj : s.optsFor env opts q with
  | none => exact Or.inl ⟨rfl, rfl⟩
  | some adj =>
    simp only [Option.bind_eq_bind, Option.bind_some]
    cases hk : q.matchKeys.head? with
    | none => exact Or.inl ⟨rfl, rfl⟩
    | some k =>
      simp only [Option.bind_some]
      cases hgr : env.query q.store k.key adj maxGridsPerPhrase with
      | none => exact Or.inl ⟨rfl, rfl⟩
      | some grids =>
        simp only [Option.bind_some]
        have hrw : ({ s' with opts := adj } : MultiState) =
            MultiState.withMap s'.coalesced { s with opts := adj } := by
          rw [h.eq]; rfl
        rw [hrw]
        obtain ⟨h1, h2⟩ := multiGrids_congr (chk := env.chk) (zooms := compatibleZooms stack q)
          (q := q) (first := i == 0) (last := i + 1 == stack.length)
          (s := { s with opts := adj }) (m := s'.coalesced) h.find
          (grids.take maxGridsPerPhrase)
        rw [h1]
        cases hf : (grids.take maxGridsPerPhrase).foldlM
            (multiGrid env.chk (compatibleZooms stack q) q (i == 0) (i + 1 == stack.length))
            { s with opts := adj } with
        | none => exact Or.inl ⟨rfl, rfl⟩
        | some s1 =>
          refine Or.inr ⟨_, _, rfl, rfl, moveOver_same ?_ ?_ o o'⟩
          · refine ⟨rfl, ?_⟩
            intro z
            rw [h2 s1 hf]
            exact h.find z
          · have hadj' : env.adjust opts q.store.zoom = some adj := by
              unfold MultiState.optsFor at hadj
              split_ifs at hadj with hz
              · exact hadj
              · cases hadj
                rw [not_not] at hz
                rw [← hz]
                exact hs.opts
            refine (multiGrids_inv (env := env) (opts := opts) (stack := stack)
              (P := fun _ _ => True) (s := { s with opts := adj }) ?_ hq ?_ ?_ hf).wfA
            · intro _ _ _ _ _ _ _ _; trivial
            · intro g hg
              exact ⟨adj, k, grids, hadj', hk, hgr, List.mem_of_mem_take hg⟩
            · refine ⟨hs.coalesced, hs.toAdd, hs.wfC, hs.wfA, hs.contexts, ?_⟩
              show env.adjust opts adj.zoom = some adj
              rw [env_adjust_zoom hadj']
              exact hadj'

theorem multiLoop_same {env : Env} {os os' : ℕ → IterOrder} {opts : MatchOpts}
    {stack : List Subquery} {i : ℕ} {rest : List Subquery} (hr : ∀ q ∈ rest, q ∈ stack)
    {s s' : MultiState} (h : SameState s s') (hs : MultiInv env opts (fun _ _ => True) s) :
    SameOpt (multiLoop env os opts stack i rest s) (multiLoop env os' opts stack i rest s') := by
  induction rest generalizing i s s' with
  | nil => exact Or.inr ⟨s, s', rfl, rfl, h⟩
  | cons q t ih =>
    unfold multiLoop
    rcases multiStep_same (o := os i) (o' := os' i) (i := i) (hr q List.mem_cons_self) h hs with
      ⟨h1, h2⟩ | ⟨a, b, h1, h2, hab⟩
    · rw [h1, h2]
      exact Or.inl ⟨rfl, rfl⟩
    · rw [h1, h2]
      refine ih (fun q hq => hr q (List.mem_cons_of_mem _ hq)) hab ?_
      exact multiStep_inv (P := fun _ _ => True) (by intro _ _ _ _ _ _ _ _; trivial)
        (hr q List.mem_cons_self) hs h1

/-! ## The first entry of a context -/

/-- The first entry of a context at a tile is on that tile, and all masks are non-zero. -/
def FirstAt (stack : List Subquery) (z : Zxy) (c : Context) : Prop :=
  (∃ q ∈ stack, ∃ g : MatchEntry, z = (q.store.zoom, g.entry.x, g.entry.y) ∧
    c.entries.head? = some (toEntry g q 0)) ∧ ∀ e ∈ c.entries, e.mask ≠ 0

/-- The absorbing loop keeps the first entry. -/
structure AbsorbFirst (e0 : CoalesceEntry) (a : Absorb) : Prop where
  head : a.entries.head? = some e0
  masks : ∀ e ∈ a.entries, e.mask ≠ 0
  prev : a.prevMask ≠ 0 → a.entries.dropLast.head? = some e0

theorem absorb_step_first {e0 : CoalesceEntry} {a : Absorb} (h : AbsorbFirst e0 a)
    {p : CoalesceEntry} (hp : p.mask ≠ 0) : AbsorbFirst e0 (a.step p) := by
  unfold Absorb.step
  split_ifs with h1 h2
  · have hd := h.prev (by rw [← h1.1]; exact hp)
    have hne : a.entries.dropLast ≠ [] := by
      intro he; rw [he] at hd; cases hd
    refine ⟨?_, ?_, ?_⟩
    · show (a.entries.dropLast ++ [p]).head? = _
      rw [List.head?_append_of_ne_nil _ hne]
      exact hd
    · intro e he
      rcases List.mem_append.1 he with he | he
      · exact h.masks e (List.mem_of_mem_dropLast he)
      · rw [List.mem_singleton] at he; subst he; exact hp
    · intro _
      show (a.entries.dropLast ++ [p]).dropLast.head? = _
      rw [List.dropLast_concat]
      exact hd
  · have hne : a.entries ≠ [] := by
      intro he; have := h.head; rw [he] at this; cases this
    refine ⟨?_, ?_, ?_⟩
    · show (a.entries ++ [p]).head? = _
      rw [List.head?_append_of_ne_nil _ hne]
      exact h.head
    · intro e he
      rcases List.mem_append.1 he with he | he
      · exact h.masks e he
      · rw [List.mem_singleton] at he; subst he; exact hp
    · intro _
      show (a.entries ++ [p]).dropLast.head? = _
      rw [List.dropLast_concat]
      exact h.head
  · exact h

theorem absorb_foldl_first {e0 : CoalesceEntry} {a : Absorb} (h : AbsorbFirst e0 a)
    {ps : List CoalesceEntry} (hp : ∀ p ∈ ps, p.mask ≠ 0) :
    AbsorbFirst e0 (ps.foldl Absorb.step a) := by
  induction ps generalizing a with
  | nil => exact h
  | cons p t ih =>
    exact ih (absorb_step_first h (hp p List.mem_cons_self))
      (fun p hp' => hp p (List.mem_cons_of_mem _ hp'))

theorem absorbZoom_first {stack : List Subquery} {m : HMap Zxy (List Context)}
    (hm : AllCtx (FirstAt stack) m) {chk : Bool} {zoom oz : ℕ} {e0 : CoalesceEntry}
    {c c' : Context} (hc : c.entries.head? = some e0 ∧ ∀ e ∈ c.entries, e.mask ≠ 0)
    (h : absorbZoom chk zoom m c oz = some c') :
    c'.entries.head? = some e0 ∧ ∀ e ∈ c'.entries, e.mask ≠ 0 := by
  unfold absorbZoom at h
  rw [Option.bind_eq_bind, Option.bind_eq_some_iff] at h
  obtain ⟨z, -, h⟩ := h
  cases hf : HMap.find z m with
  | none => rw [hf] at h; cases h; exact hc
  | some ps =>
    rw [hf] at h
    cases h
    have := absorb_foldl_first (e0 := e0) (a := ⟨c.entries, c.mask, c.relev, 0, 0⟩)
      ⟨hc.1, hc.2, fun h => absurd rfl h⟩ (ps := ps.flatMap Context.entries) (by
        intro p hp
        obtain ⟨d, hd, hp⟩ := List.mem_flatMap.1 hp
        exact (hm.find hf d hd).2 p hp)
    exact ⟨this.head, this.masks⟩

theorem gridStep_first (env : Env) (opts : MatchOpts) {stack : List Subquery}
    (hmask : ∀ q ∈ stack, q.mask ≠ 0) : GridStep env opts stack (FirstAt stack) := by
  intro q hq g _ m hm c hc
  have key : ∀ (ozs : List ℕ) (c0 : Context),
      (c0.entries.head? = some (toEntry g q 0) ∧ ∀ e ∈ c0.entries, e.mask ≠ 0) →
      ozs.foldlM (absorbZoom env.chk q.store.zoom m) c0 = some c →
      c.entries.head? = some (toEntry g q 0) ∧ ∀ e ∈ c.entries, e.mask ≠ 0 := by
    intro ozs
    induction ozs with
    | nil => intro c0 h0 h; cases h; exact h0
    | cons oz t ih =>
      intro c0 h0 h
      rw [List.foldlM_cons, Option.bind_eq_bind, Option.bind_eq_some_iff] at h
      obtain ⟨c1, h1, h⟩ := h
      exact ih c1 (absorbZoom_first hm h0 h1) h
  have := key _ _ ⟨rfl, by
    intro e he
    rw [List.mem_singleton] at he
    subst he
    exact hmask q hq⟩ hc
  exact ⟨⟨q, hq, g, rfl, this.1⟩, this.2⟩

theorem sortKey_first {a b : Context} (h : a.sortKey = b.sortKey) :
    a.first.idx = b.first.idx ∧ a.first.entry.x = b.first.entry.x ∧
      a.first.entry.y = b.first.entry.y := by
  refine ⟨?_, ?_, ?_⟩
  · exact congrArg (fun x => OrderDual.ofDual (ofLex (ofLex (ofLex x).2).2).1) h
  · exact congrArg (fun x => (ofLex (ofLex (ofLex (ofLex x).2).2).2).1) h
  · exact congrArg (fun x => (ofLex (ofLex (ofLex (ofLex (ofLex x).2).2).2).2).1) h

theorem eq_of_idx {stack : List Subquery} (h : (stack.map (·.idx)).Nodup) {a b : Subquery}
    (ha : a ∈ stack) (hb : b ∈ stack) (hab : a.idx = b.idx) : a = b :=
  List.inj_on_of_nodup_map h ha hb hab

/-- Contexts on different tiles have different sort keys. -/
theorem firstAt_key {stack : List Subquery} (hnd : (stack.map (·.idx)).Nodup) {z z' : Zxy}
    {c c' : Context} (h : FirstAt stack z c) (h' : FirstAt stack z' c')
    (hk : c.sortKey = c'.sortKey) : z = z' := by
  obtain ⟨⟨q, hq, g, hz, hf⟩, -⟩ := h
  obtain ⟨⟨q', hq', g', hz', hf'⟩, -⟩ := h'
  have hc : c.first = toEntry g q 0 := by
    unfold Context.first
    rw [List.headD_eq_head?_getD, hf]
    rfl
  have hc' : c'.first = toEntry g' q' 0 := by
    unfold Context.first
    rw [List.headD_eq_head?_getD, hf']
    rfl
  obtain ⟨h1, h2, h3⟩ := sortKey_first hk
  rw [hc, hc'] at h1 h2 h3
  have hqq : q = q' := eq_of_idx hnd hq hq' h1
  subst hqq
  have h2' : g.entry.x = g'.entry.x := h2
  have h3' : g.entry.y = g'.entry.y := h3
  rw [hz, hz', h2', h3']

/-- `coalesce_multi` does not depend on the iteration orders of its hash maps. -/
theorem coalesceMulti_order (env : Env) (os os' : ℕ → IterOrder) (stack : List Subquery)
    (opts : MatchOpts) (hnd : (stack.map (·.idx)).Nodup) (hmask : ∀ q ∈ stack, q.mask ≠ 0) :
    coalesceMulti env os stack opts = coalesceMulti env os' stack opts := by
  unfold coalesceMulti
  have hperm := List.perm_insertionSort (fun a b : Subquery => a.stackKey ≤ b.stackKey) stack
  generalize hst : (stack.insertionSort fun a b => a.stackKey ≤ b.stackKey) = sorted at hperm
  have hnd' : (sorted.map (·.idx)).Nodup := (hperm.map _).nodup_iff.2 hnd
  have hmask' : ∀ q ∈ sorted, q.mask ≠ 0 := fun q hq => hmask q (hperm.mem_iff.1 hq)
  show ((multiLoop env os opts sorted 0 sorted ⟨[], [], [], 0, opts⟩).bind _) =
    ((multiLoop env os' opts sorted 0 sorted ⟨[], [], [], 0, opts⟩).bind _)
  rcases multiLoop_same (env := env) (os := os) (os' := os') (opts := opts) (stack := sorted)
    (i := 0) (rest := sorted) (fun _ h => h) (SameState.refl ⟨[], [], [], 0, opts⟩)
    (multiInit_inv env opts _) with ⟨h1, h2⟩ | ⟨s, s', h1, h2, hss⟩
  · rw [h1, h2]
    rfl
  · have i1 := multiLoop_inv (gridStep_first env opts hmask') (fun _ h => h)
      (multiInit_inv env opts _) h1
    have i2 := multiLoop_inv (gridStep_first env opts hmask') (fun _ h => h)
      (multiInit_inv env opts _) h2
    rw [h1, h2]
    have hctx : s'.contexts = s.contexts := by rw [hss.eq]; rfl
    have hmax : s'.maxRelev = s.maxRelev := by rw [hss.eq]; rfl
    simp only [Option.bind_some, hctx, hmax]
    refine congrArg some (insertionSort_desc_congr Context.sortKey ?_)
    intro k
    have hf : ∀ l : List (Zxy × List Context),
        (l.flatMap Prod.snd).filter (fun c => F64.flt (s.maxRelev - c.relev) (lit 0.25)) =
          l.flatMap fun p => p.2.filter fun c => F64.flt (s.maxRelev - c.relev) (lit 0.25) :=
      fun l => List.filter_flatMap
    rw [List.filter_append, List.filter_append, hf, hf]
    congr 1
    refine filter_flatMap_perm Context.sortKey _ ?_ ?_ k
    · refine ((IterOrder.perm _ _).trans ?_).trans (IterOrder.perm _ _).symm
      exact HMap.perm_of_find i1.wfC i2.wfC hss.find
    · have hp : (((os sorted.length).run s.coalesced).map Prod.fst).Nodup :=
        HMap.wf_of_perm (IterOrder.perm _ _).symm i1.wfC
      have hp' := List.pairwise_map.1 hp
      refine List.pairwise_iff_forall_sublist.2 ?_
      intro a b hab x hx y hy hk
      have ha : a ∈ s.coalesced := (IterOrder.perm _ _).mem_iff.1 (hab.subset (by simp))
      have hb : b ∈ s.coalesced := (IterOrder.perm _ _).mem_iff.1 (hab.subset (by simp))
      have := firstAt_key hnd' (i1.coalesced a ha x (List.mem_filter.1 hx).1)
        (i1.coalesced b hb y (List.mem_filter.1 hy).1) hk
      exact List.pairwise_iff_forall_sublist.1 hp' hab this

end Carmen
