import Verif.Lemmas.CoalesceRelev

/-!
# The loops of `coalesce_multi`, phrase match by phrase match
-/

namespace Carmen
open Spec

/-! ## What absorbing parents keeps and adds -/

theorem unionMask_and {m : ℕ} {l : List ℕ} (h : unionMask l &&& m ≠ 0) : ∃ a ∈ l, a &&& m ≠ 0 := by
  induction l with
  | nil => simp [unionMask] at h
  | cons b t ih =>
    have h' : (b ||| unionMask t) &&& m ≠ 0 := h
    rw [Nat.and_or_distrib_right, ne_eq, Nat.or_eq_zero_iff, not_and_or] at h'
    rcases h' with h' | h'
    · exact ⟨b, List.mem_cons_self, h'⟩
    · obtain ⟨a, ha, hm⟩ := ih h'
      exact ⟨a, List.mem_cons_of_mem _ ha, hm⟩

theorem EntryOk.source {stack : List Subquery} {e : CoalesceEntry}
    (h : EntryOk (relevVals stack) e) : ∃ q ∈ stack, q.mask = e.mask := by
  obtain ⟨r, _, _, _, hr⟩ := h.relev
  unfold relevVals at hr
  cases hf : stack.find? fun q => q.mask == e.mask with
  | none => rw [hf] at hr; cases hr
  | some q => exact ⟨q, List.mem_of_find?_eq_some hf, by simpa using List.find?_some hf⟩

/-- The masks of the entries of a context. -/
def Context.masks (c : Context) : List ℕ := c.entries.map (·.mask)

theorem absorb_step_covers {stack : List Subquery} (hst : StackOk stack) {a : Absorb}
    (h : AbsorbRel (relevVals stack) a) {p : CoalesceEntry} (hp : EntryOk (relevVals stack) p) :
    (a.entries.map (·.mask) ⊆ (a.step p).entries.map (·.mask) ∧
      p.mask ∈ (a.step p).entries.map (·.mask)) ∧
    (a.step p).entries.head? = a.entries.head? := by
  unfold Absorb.step
  split_ifs with h1 h2
  · obtain ⟨h1, -⟩ := h1
    obtain ⟨init, l, hent, hne, hlm, -⟩ := h.prev (by rw [← h1]; exact hp.mask.1)
    simp only [hent, List.dropLast_concat]
    refine ⟨⟨?_, by simp⟩, ?_⟩
    · intro m hm
      rw [List.map_append, List.map_singleton] at hm ⊢
      rwa [hlm, ← h1] at hm
    · exact head?_append_singleton hne _ _
  · refine ⟨⟨?_, by simp⟩, List.head?_append_of_ne_nil _ h.acc.ne⟩
    intro m hm
    rw [List.map_append]
    exact List.mem_append_left _ hm
  · refine ⟨⟨fun _ hm => hm, ?_⟩, rfl⟩
    rw [h.acc.mask] at h2
    obtain ⟨m, hm, hmp⟩ := unionMask_and h2
    obtain ⟨e, he, rfl⟩ := List.mem_map.1 hm
    obtain ⟨q, hq, hqe⟩ := (h.acc.ok e he).source
    obtain ⟨q', hq', hqp⟩ := hp.source
    have : q = q' := by
      by_contra hne
      have hs : Std.Symm fun a b : Subquery => a.mask &&& b.mask = 0 :=
        ⟨fun a b hab => by rw [Nat.and_comm]; exact hab⟩
      have := hst.disjoint.forall hq hq' hne
      rw [hqe, hqp] at this
      exact hmp this
    rw [← hqp, ← this, hqe]
    exact hm

theorem absorb_foldl_covers {stack : List Subquery} (hst : StackOk stack)
    {ps : List CoalesceEntry} (hp : ∀ p ∈ ps, EntryOk (relevVals stack) p) {a : Absorb}
    (h : AbsorbRel (relevVals stack) a) :
    (a.entries.map (·.mask) ⊆ (ps.foldl Absorb.step a).entries.map (·.mask) ∧
      ∀ p ∈ ps, p.mask ∈ (ps.foldl Absorb.step a).entries.map (·.mask)) ∧
    (ps.foldl Absorb.step a).entries.head? = a.entries.head? := by
  induction ps generalizing a with
  | nil => exact ⟨⟨fun _ h => h, by simp⟩, rfl⟩
  | cons p t ih =>
    obtain ⟨⟨h1, h2⟩, h3⟩ := absorb_step_covers hst h (hp p List.mem_cons_self)
    obtain ⟨⟨k1, k2⟩, k3⟩ := ih (fun p hp' => hp p (List.mem_cons_of_mem _ hp'))
      (absorbRel_step (relevVals_length stack) h (hp p List.mem_cons_self))
    refine ⟨⟨fun m hm => k1 (h1 hm), ?_⟩, k3.trans h3⟩
    intro x hx
    rcases List.mem_cons.1 hx with rfl | hx
    · exact k1 h2
    · exact k2 x hx

theorem Context.first_of_head {c c' : Context} (h : c'.entries.head? = c.entries.head?) :
    c'.first = c.first := by
  unfold Context.first
  rw [List.headD_eq_head?_getD, List.headD_eq_head?_getD, h]

/-- The map has the context on the tile. -/
def OnTile (m : HMap Zxy (List Context)) (z : Zxy) (c : Context) : Prop :=
  ∃ cs, HMap.find z m = some cs ∧ c ∈ cs

theorem absorbZoom_covers {stack : List Subquery} (hst : StackOk stack) {chk : Bool}
    {zoom oz : ℕ} {m : HMap Zxy (List Context)}
    (hm : AllCtx (fun _ c => CtxRel (relevVals stack) c) m) {c c' : Context}
    (hc : CtxRel (relevVals stack) c) (h : absorbZoom chk zoom m c oz = some c') :
    c.masks ⊆ c'.masks ∧ c'.first = c.first ∧
      ∀ z, tileAbove chk zoom oz c.first = some z → ∀ d, OnTile m z d → d.masks ⊆ c'.masks := by
  unfold absorbZoom at h
  rw [Option.bind_eq_bind, Option.bind_eq_some_iff] at h
  obtain ⟨z, hz, h⟩ := h
  cases hf : HMap.find z m with
  | none =>
    rw [hf] at h
    cases h
    refine ⟨fun _ h => h, rfl, ?_⟩
    rintro z' hz' d ⟨cs, hcs, -⟩
    rw [hz, Option.some.injEq] at hz'
    subst hz'
    rw [hf] at hcs
    cases hcs
  | some ps =>
    rw [hf] at h
    cases h
    obtain ⟨⟨h1, h2⟩, h3⟩ := absorb_foldl_covers hst (ps := ps.flatMap Context.entries)
      (a := ⟨c.entries, c.mask, c.relev, 0, 0⟩) (by
        intro p hp
        obtain ⟨d, hd, hp⟩ := List.mem_flatMap.1 hp
        exact (hm.find hf d hd).ok p hp) ⟨hc, fun hne => absurd rfl hne⟩
    refine ⟨h1, Context.first_of_head h3, ?_⟩
    rintro z' hz' d ⟨cs, hcs, hd⟩
    rw [hz, Option.some.injEq] at hz'
    subst hz'
    rw [hf, Option.some.injEq] at hcs
    subst hcs
    intro x hx
    obtain ⟨e, he, rfl⟩ := List.mem_map.1 hx
    exact h2 e (List.mem_flatMap.2 ⟨d, hd, he⟩)

theorem absorbZooms_covers {stack : List Subquery} (hst : StackOk stack) {chk : Bool}
    {zoom : ℕ} {m : HMap Zxy (List Context)}
    (hm : AllCtx (fun _ c => CtxRel (relevVals stack) c) m) {ozs : List ℕ} {c c' : Context}
    (hc : CtxRel (relevVals stack) c) (h : ozs.foldlM (absorbZoom chk zoom m) c = some c') :
    c.masks ⊆ c'.masks ∧ c'.first = c.first ∧
      ∀ oz ∈ ozs, ∀ z, tileAbove chk zoom oz c.first = some z → ∀ d, OnTile m z d →
        d.masks ⊆ c'.masks := by
  induction ozs generalizing c with
  | nil =>
    cases h
    exact ⟨fun _ h => h, rfl, by simp⟩
  | cons oz t ih =>
    rw [List.foldlM_cons, Option.bind_eq_bind, Option.bind_eq_some_iff] at h
    obtain ⟨c1, h1, h⟩ := h
    obtain ⟨k1, k2, k3⟩ := absorbZoom_covers hst hm hc h1
    obtain ⟨l1, l2, l3⟩ := ih (absorbZoom_rel (relevVals_length stack) hm hc h1) h
    refine ⟨fun x hx => l1 (k1 hx), l2.trans k2, ?_⟩
    intro oz' hoz z hz d hd
    rcases List.mem_cons.1 hoz with rfl | hoz
    · exact fun x hx => l1 (k3 z hz d hd hx)
    · exact l3 oz' hoz z (by rw [k2]; exact hz) d hd

/-! ## Compatible zooms -/

theorem mem_dedupAdjacent_iff {l : List ℕ} {a : ℕ} : a ∈ dedupAdjacent l ↔ a ∈ l := by
  refine ⟨mem_dedupAdjacent, fun h => ?_⟩
  induction l with
  | nil => exact h
  | cons b t ih =>
    unfold dedupAdjacent
    cases hd : dedupAdjacent t with
    | nil =>
      rcases List.mem_cons.1 h with rfl | h
      · simp
      · have := ih h
        rw [hd] at this
        cases this
    | cons c r =>
      simp only
      rw [hd] at ih
      split_ifs with hbc
      · rcases List.mem_cons.1 h with rfl | h
        · rw [hbc]; exact List.mem_cons_self
        · exact ih h
      · rcases List.mem_cons.1 h with rfl | h
        · exact List.mem_cons_self
        · exact List.mem_cons_of_mem _ (ih h)

theorem compatibleZooms_mem {stack : List Subquery} {q b : Subquery} (hb : b ∈ stack)
    (hi : q.idx ≠ b.idx) (hz : b.store.zoom ≤ q.store.zoom) :
    b.store.zoom ∈ compatibleZooms stack q := by
  unfold compatibleZooms
  rw [mem_dedupAdjacent_iff]
  refine List.mem_map.2 ⟨b, List.mem_filter.2 ⟨hb, ?_⟩, rfl⟩
  simp only [Bool.not_or, Bool.and_eq_true, Bool.not_eq_true', beq_eq_false_iff_ne,
    decide_eq_false_iff_not, not_lt]
  exact ⟨hi, hz⟩

/-! ## One grid -/

/-- The context `coalesce_multi` makes for a grid, before the penalty. -/
def Builds (env : Env) (stack : List Subquery) (m : HMap Zxy (List Context)) (q : Subquery)
    (g : MatchEntry) (c : Context) : Prop :=
  (compatibleZooms stack q).foldlM (absorbZoom env.chk q.store.zoom m)
    ⟨q.mask, g.entry.relev * q.weight, [toEntry g q 0]⟩ = some c

/-- What is known of the contexts of the phrase matches `done`. -/
structure PreCtx (env : Env) (opts : MatchOpts) (stack done : List Subquery) (z : Zxy)
    (c : Context) : Prop where
  built : BuiltAt env opts stack z c
  rel : CtxRel (relevVals stack) c
  first : ∃ q ∈ done, c.first.mask = q.mask

theorem PreCtx.mono {env : Env} {opts : MatchOpts} {stack done done' : List Subquery} {z : Zxy}
    {c : Context} (h : PreCtx env opts stack done z c) (hs : done ⊆ done') :
    PreCtx env opts stack done' z c := by
  obtain ⟨q, hq, hm⟩ := h.first
  exact ⟨h.built, h.rel, q, hs hq, hm⟩

theorem AllCtx.imp {P Q : Zxy → Context → Prop} {m : HMap Zxy (List Context)} (h : AllCtx P m)
    (hpq : ∀ z c, P z c → Q z c) : AllCtx Q m := fun p hp c hc => hpq _ _ (h p hp c hc)

/-- The conditions on the stack of `coalesce_multi`. -/
structure MultiOk (env : Env) (stack : List Subquery) : Prop where
  ok : StackOk stack
  zooms : env.chk = true ∨ ∀ q ∈ stack, ∀ q' ∈ stack, q.store.zoom < q'.store.zoom + 16

theorem Builds.preCtx {env : Env} {opts : MatchOpts} {stack done : List Subquery}
    (hst : MultiOk env stack) {m : HMap Zxy (List Context)}
    (hm : AllCtx (PreCtx env opts stack done) m) {q : Subquery} (hq : q ∈ stack) {g : MatchEntry}
    (hg : Answers env opts q g) {c : Context} (h : Builds env stack m q g c) :
    PreCtx env opts stack [q] (tileOf q g) c ∧ c.first = toEntry g q 0 := by
  have hf := (absorbZooms_covers hst.ok (hm.imp fun _ _ h => h.rel) (ctxRel_one hst.ok hq hg) h).2.1
  refine ⟨⟨gridStep_built (fun q hq => (hst.ok.covers q hq).1) hst.zooms q hq g hg m
    (hm.imp fun _ _ h => h.built) c h, gridStep_rel hst.ok q hq g hg m (hm.imp fun _ _ h => h.rel)
    c h, q, by simp, ?_⟩, hf⟩
  rw [hf]
  rfl

/-- The context of a grid covers what the contexts on the tiles around it cover. -/
theorem Builds.covers {env : Env} {opts : MatchOpts} {stack done : List Subquery}
    (hst : MultiOk env stack) {m : HMap Zxy (List Context)}
    (hm : AllCtx (PreCtx env opts stack done) m) {q : Subquery} (hq : q ∈ stack) {g : MatchEntry}
    (hg : Answers env opts q g) {c : Context} (h : Builds env stack m q g c) :
    q.mask ∈ c.masks ∧ ∀ (q' : Subquery) (g' : MatchEntry), q' ∈ stack → q.idx ≠ q'.idx →
      TileContains (tileOf q' g') (tileOf q g) → ∀ d, OnTile m (tileOf q' g') d →
        d.masks ⊆ c.masks := by
  obtain ⟨h1, h2, h3⟩ := absorbZooms_covers hst.ok (hm.imp fun _ _ h => h.rel)
    (ctxRel_one hst.ok hq hg) h
  refine ⟨h1 (by simp [Context.masks, toEntry]), ?_⟩
  rintro q' g' hq' hi ⟨t1, t2, t3⟩ d hd
  refine h3 q'.store.zoom (compatibleZooms_mem hq' hi t1) (tileOf q' g') ?_ d hd
  -- panics aside, the tile above is the tile of the other grid
  have hlt : q.store.zoom - q'.store.zoom < 16 := by
    rcases hst.zooms with hz | hz
    · by_contra hge
      have hmem := compatibleZooms_mem hq' hi t1
      have key : ∀ (ozs : List ℕ), q'.store.zoom ∈ ozs → ∀ c0 c1 : Context,
          ozs.foldlM (absorbZoom env.chk q.store.zoom m) c0 = some c1 → False := by
        intro ozs
        induction ozs with
        | nil => intro h; cases h
        | cons oz t ih =>
          intro hmem c0 c1 hf
          rw [List.foldlM_cons, Option.bind_eq_bind, Option.bind_eq_some_iff] at hf
          obtain ⟨c2, hc2, hf⟩ := hf
          rcases List.mem_cons.1 hmem with rfl | hmem
          · unfold absorbZoom tileAbove at hc2
            rw [hz] at hc2
            simp only [Bool.true_and, decide_eq_true_eq, if_pos (not_lt.1 hge)] at hc2
            cases hc2
          · exact ih hmem c2 c1 hf
      exact key _ hmem _ _ h
    · have := hz q hq q' hq'
      omega
  unfold tileAbove
  rw [if_neg (by simp only [Bool.and_eq_true, decide_eq_true_eq, not_and, not_le]; intro _; exact hlt)]
  have hf : oneShl16 (q.store.zoom - q'.store.zoom) = 2 ^ (q.store.zoom - q'.store.zoom) := by
    unfold oneShl16
    rw [Nat.mod_eq_of_lt hlt, Nat.shiftLeft_eq, Nat.one_mul]
  simp only [hf]
  rw [Option.some.injEq]
  unfold tileOf at t2 t3 ⊢
  simp only at t2 t3
  rw [t2, t3]
  rfl

/-! ## The grids of one phrase match -/

theorem onTile_upsert_self {m : HMap Zxy (List Context)} {z : Zxy} {c : Context}
    {cs : List Context} (h : c ∈ cs) : OnTile (HMap.upsert z [] (· ++ cs) m) z c := by
  refine ⟨_, by rw [HMap.find_upsert, if_pos rfl], List.mem_append_right _ h⟩

theorem OnTile.upsert {m : HMap Zxy (List Context)} {z z' : Zxy} {c : Context} {cs : List Context}
    (h : OnTile m z c) : OnTile (HMap.upsert z' [] (· ++ cs) m) z c := by
  obtain ⟨l, hl, hc⟩ := h
  by_cases hz : z = z'
  · subst hz
    refine ⟨_, by rw [HMap.find_upsert, if_pos rfl], List.mem_append_left _ ?_⟩
    rw [hl]
    exact hc
  · exact ⟨l, by rw [HMap.find_upsert, if_neg hz]; exact hl, hc⟩

theorem OnTile.foldl {l : List (Zxy × List Context)} {m : HMap Zxy (List Context)} {z : Zxy}
    {c : Context} (h : OnTile m z c ∨ ∃ cs, (z, cs) ∈ l ∧ c ∈ cs) :
    OnTile (l.foldl (fun m p => HMap.upsert p.1 [] (· ++ p.2) m) m) z c := by
  induction l generalizing m with
  | nil =>
    rcases h with h | ⟨cs, h, -⟩
    · exact h
    · cases h
  | cons p t ih =>
    rw [List.foldl_cons]
    refine ih ?_
    rcases h with h | ⟨cs, h, hc⟩
    · exact Or.inl h.upsert
    · rcases List.mem_cons.1 h with rfl | h
      · exact Or.inl (onTile_upsert_self hc)
      · exact Or.inr ⟨cs, h, hc⟩

theorem onTile_moveOver {o : IterOrder} {s : MultiState} {z : Zxy} {c : Context}
    (h : OnTile s.coalesced z c ∨ OnTile s.toAdd z c) : OnTile (moveOver o s).coalesced z c := by
  refine OnTile.foldl ?_
  rcases h with h | ⟨cs, hcs, hc⟩
  · exact Or.inl h
  · exact Or.inr ⟨cs, (o.perm _).mem_iff.2 (HMap.mem_of_find hcs), hc⟩

/-- The grids of a phrase match that is not the last one. -/
structure StageResult (env : Env) (stack : List Subquery) (q : Subquery) (first : Bool)
    (grids : List MatchEntry) (s s' : MultiState) : Prop where
  coalesced : s'.coalesced = s.coalesced
  contexts : s'.contexts = s.contexts
  opts : s'.opts = s.opts
  max : s'.maxRelev = s.maxRelev ∨
    ∃ g ∈ grids, ∃ c, Builds env stack s.coalesced q g c ∧ c.relev = s'.maxRelev
  toAdd : ∀ P : Zxy → Context → Prop, AllCtx P s.toAdd →
    (∀ g ∈ grids, ∀ c, Builds env stack s.coalesced q g c → P (tileOf q g) c) → AllCtx P s'.toAdd
  keeps : ∀ z c, OnTile s.toAdd z c → OnTile s'.toAdd z c
  adds : ∀ g ∈ grids, ∃ c, Builds env stack s.coalesced q g c ∧
    (first = true ∨ 1 < c.entries.length → OnTile s'.toAdd (tileOf q g) c)

theorem stage {env : Env} {stack : List Subquery} {q : Subquery} {first : Bool}
    {grids : List MatchEntry} {s s' : MultiState}
    (h : grids.foldlM (multiGrid env.chk (compatibleZooms stack q) q first false) s = some s') :
    StageResult env stack q first grids s s' := by
  induction grids generalizing s with
  | nil =>
    cases h
    exact ⟨rfl, rfl, rfl, Or.inl rfl, fun _ h _ => h, fun _ _ h => h, by simp⟩
  | cons g t ih =>
    rw [List.foldlM_cons, Option.bind_eq_bind, Option.bind_eq_some_iff] at h
    obtain ⟨s1, h1, h⟩ := h
    have hr := ih h
    unfold multiGrid at h1
    simp only [Option.bind_eq_bind, Option.bind_eq_some_iff, Bool.false_eq_true, if_false] at h1
    obtain ⟨e, he, c, hc, h1⟩ := h1
    have he' := mkEntry_some he
    subst he'
    have hb : Builds env stack s.coalesced q g c := hc
    have hs1 : s1.coalesced = s.coalesced ∧ s1.contexts = s.contexts ∧ s1.opts = s.opts ∧
        (s1.maxRelev = s.maxRelev ∨ c.relev = s1.maxRelev) ∧
        (∀ P : Zxy → Context → Prop, AllCtx P s.toAdd → P (tileOf q g) c → AllCtx P s1.toAdd) ∧
        (∀ z d, OnTile s.toAdd z d → OnTile s1.toAdd z d) ∧
        (first = true ∨ 1 < c.entries.length → OnTile s1.toAdd (tileOf q g) c) := by
      have hmax : (if s.maxRelev.flt c.relev = true then c.relev else s.maxRelev) = s.maxRelev ∨
          c.relev = if s.maxRelev.flt c.relev = true then c.relev else s.maxRelev := by
        split_ifs <;> simp
      generalize (if s.maxRelev.flt c.relev = true then c.relev else s.maxRelev) = mr at h1 hmax
      split_ifs at h1 with hcond
      · cases h1
        refine ⟨rfl, rfl, rfl, hmax, ?_, fun _ _ h => h.upsert, fun _ => onTile_upsert_self (by simp)⟩
        intro P hP hc
        refine hP.upsert ?_
        intro d hd
        rw [List.mem_singleton] at hd
        subst hd
        exact hc
      · cases h1
        refine ⟨rfl, rfl, rfl, hmax, fun _ h _ => h, fun _ _ h => h, ?_⟩
        intro hf
        rw [Bool.or_eq_true, decide_eq_true_eq] at hcond
        exact absurd hf hcond
    obtain ⟨e1, e2, e3, e4, e5, e6, e7⟩ := hs1
    have hrc := hr.max
    have hra := hr.adds
    have hrt := hr.toAdd
    rw [e1] at hrc hra hrt
    refine ⟨hr.coalesced.trans e1, hr.contexts.trans e2, hr.opts.trans e3, ?_, ?_,
      fun z d hd => hr.keeps z d (e6 z d hd), ?_⟩
    · rcases hrc with hx | ⟨g', hg', d, hd, hx⟩
      · rcases e4 with e4 | e4
        · exact Or.inl (hx.trans e4)
        · exact Or.inr ⟨g, List.mem_cons_self, c, hb, by rw [hx]; exact e4⟩
      · exact Or.inr ⟨g', List.mem_cons_of_mem _ hg', d, hd, hx⟩
    · intro P hP hall
      exact hrt P (e5 P hP (hall g List.mem_cons_self c hb))
        fun g' hg' => hall g' (List.mem_cons_of_mem _ hg')
    · intro g' hg'
      rcases List.mem_cons.1 hg' with rfl | hg'
      · exact ⟨c, hb, fun hf => hr.keeps _ _ (e7 hf)⟩
      · exact hra g' hg'

/-- The grids of the last phrase match. -/
structure LastResult (env : Env) (stack : List Subquery) (q : Subquery) (grids : List MatchEntry)
    (s s' : MultiState) : Prop where
  coalesced : s'.coalesced = s.coalesced
  toAdd : s'.toAdd = s.toAdd
  max : s'.maxRelev = s.maxRelev ∨
    ∃ g ∈ grids, ∃ c, Builds env stack s.coalesced q g c ∧ c.relev = s'.maxRelev
  contexts : ∀ c' ∈ s'.contexts, c' ∈ s.contexts ∨
    ∃ g ∈ grids, ∃ c, Builds env stack s.coalesced q g c ∧ c' = c.penalize
  keeps : ∀ c ∈ s.contexts, c ∈ s'.contexts
  adds : ∀ g ∈ grids, ∃ c, Builds env stack s.coalesced q g c ∧ (c.penalize ∈ s'.contexts ∨
    ∃ r, (r = s.maxRelev ∨ ∃ g' ∈ grids, ∃ d, Builds env stack s.coalesced q g' d ∧ d.relev = r) ∧
      F64.flt (r - c.penalize.relev) (lit 0.25) = false)

theorem lastStage {env : Env} {stack : List Subquery} {q : Subquery} {first : Bool}
    {grids : List MatchEntry} {s s' : MultiState}
    (h : grids.foldlM (multiGrid env.chk (compatibleZooms stack q) q first true) s = some s') :
    LastResult env stack q grids s s' := by
  induction grids generalizing s with
  | nil =>
    cases h
    exact ⟨rfl, rfl, Or.inl rfl, fun _ h => Or.inl h, fun _ h => h, by simp⟩
  | cons g t ih =>
    rw [List.foldlM_cons, Option.bind_eq_bind, Option.bind_eq_some_iff] at h
    obtain ⟨s1, h1, h⟩ := h
    have hr := ih h
    unfold multiGrid at h1
    simp only [Option.bind_eq_bind, Option.bind_eq_some_iff, if_true] at h1
    obtain ⟨e, he, c, hc, h1⟩ := h1
    have he' := mkEntry_some he
    subst he'
    have hb : Builds env stack s.coalesced q g c := hc
    have hs1 : s1.coalesced = s.coalesced ∧ s1.toAdd = s.toAdd ∧
        (s1.maxRelev = s.maxRelev ∨ c.relev = s1.maxRelev) ∧
        (∀ c' ∈ s1.contexts, c' ∈ s.contexts ∨ c' = c.penalize) ∧
        (∀ d ∈ s.contexts, d ∈ s1.contexts) ∧
        (c.penalize ∈ s1.contexts ∨ ∃ r, (r = s.maxRelev ∨ c.relev = r) ∧
          F64.flt (r - c.penalize.relev) (lit 0.25) = false) := by
      have hmax : (if s.maxRelev.flt c.relev = true then c.relev else s.maxRelev) = s.maxRelev ∨
          c.relev = if s.maxRelev.flt c.relev = true then c.relev else s.maxRelev := by
        split_ifs <;> simp
      generalize (if s.maxRelev.flt c.relev = true then c.relev else s.maxRelev) = mr at h1 hmax
      split_ifs at h1 with hcond
      · cases h1
        refine ⟨rfl, rfl, hmax, ?_, fun _ h => List.mem_append_left _ h, Or.inl (by simp)⟩
        intro c' hc'
        rcases List.mem_append.1 hc' with h | h
        · exact Or.inl h
        · exact Or.inr (by simpa using h)
      · cases h1
        exact ⟨rfl, rfl, hmax, fun _ h => Or.inl h, fun _ h => h,
          Or.inr ⟨mr, hmax, by simpa using hcond⟩⟩
    obtain ⟨e1, e2, e4, e5, e6, e7⟩ := hs1
    have hrc := hr.max
    have hra := hr.adds
    have hrt := hr.contexts
    rw [e1] at hrc hra hrt
    refine ⟨hr.coalesced.trans e1, hr.toAdd.trans e2, ?_, ?_,
      fun d hd => hr.keeps d (e6 d hd), ?_⟩
    · rcases hrc with hx | ⟨g', hg', d, hd, hx⟩
      · rcases e4 with e4 | e4
        · exact Or.inl (hx.trans e4)
        · exact Or.inr ⟨g, List.mem_cons_self, c, hb, by rw [hx]; exact e4⟩
      · exact Or.inr ⟨g', List.mem_cons_of_mem _ hg', d, hd, hx⟩
    · intro c' hc'
      rcases hrt c' hc' with hx | ⟨g', hg', d, hd, hx⟩
      · rcases e5 c' hx with hx | hx
        · exact Or.inl hx
        · exact Or.inr ⟨g, List.mem_cons_self, c, hb, hx⟩
      · exact Or.inr ⟨g', List.mem_cons_of_mem _ hg', d, hd, hx⟩
    · intro g' hg'
      rcases List.mem_cons.1 hg' with rfl | hg'
      · refine ⟨c, hb, ?_⟩
        rcases e7 with e7 | ⟨r, hr', hlt⟩
        · exact Or.inl (hr.keeps _ e7)
        · refine Or.inr ⟨r, ?_, hlt⟩
          rcases hr' with hr' | hr'
          · exact Or.inl hr'
          · exact Or.inr ⟨g', List.mem_cons_self, c, hb, hr'⟩
      · obtain ⟨d, hd, hx⟩ := hra g' hg'
        refine ⟨d, hd, hx.imp_right ?_⟩
        rintro ⟨r, hr', hlt⟩
        refine ⟨r, ?_, hlt⟩
        rcases hr' with hr' | ⟨g'', hg'', d', hd', hr'⟩
        · rcases e4 with e4 | e4
          · exact Or.inl (hr'.trans e4)
          · exact Or.inr ⟨g, List.mem_cons_self, c, hb, by rw [hr']; exact e4⟩
        · exact Or.inr ⟨g'', List.mem_cons_of_mem _ hg'', d', hd', hr'⟩

end Carmen
