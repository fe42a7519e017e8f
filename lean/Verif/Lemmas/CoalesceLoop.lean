import Verif.Lemmas.CoalesceBest

/-!
# The loop of `coalesce_multi` over the stack
-/

namespace Carmen
open Spec

/-- Grids of the phrase matches `done`, in their order, each inside those before it. -/
structure NestedOn (env : Env) (opts : MatchOpts) (done : List Subquery)
    (ps : List (Subquery × MatchEntry)) : Prop where
  all : ps.map Prod.fst = done
  nested : ps.Pairwise fun a b => TileContains (tileOf a.1 a.2) (tileOf b.1 b.2)
  found : ∀ p ∈ ps, Among env opts p.1 p.2

theorem Among.answers {env : Env} {opts : MatchOpts} {q : Subquery} {g : MatchEntry}
    (h : Among env opts q g) : Answers env opts q g := by
  obtain ⟨a, k, gs, h1, h2, h3, h4⟩ := h
  exact ⟨a, k, gs, h1, h2, h3, List.mem_of_mem_take h4⟩

/-- The state after the phrase matches `done`, which are not the whole stack. -/
structure StackDone (env : Env) (opts : MatchOpts) (stack done : List Subquery) (s : MultiState) :
    Prop where
  ctx : AllCtx (PreCtx env opts stack done) s.coalesced
  wf : HMap.Wf s.coalesced
  toAdd : s.toAdd = []
  contexts : s.contexts = []
  optsOk : env.adjust opts s.opts.zoom = some s.opts
  max : s.maxRelev = 0 ∨ ∃ z c, PreCtx env opts stack done z c ∧ c.relev = s.maxRelev
  tidy : (stack.map (·.idx)).Nodup → Tidy s.coalesced
  covered : (stack.map (·.idx)).Nodup → ∀ ps, NestedOn env opts done ps → ∀ p ∈ ps,
    ∃ c, OnTile s.coalesced (tileOf p.1 p.2) c ∧ c.first = toEntry p.2 p.1 0

theorem stackDone_init (env : Env) (opts : MatchOpts) (stack : List Subquery) :
    StackDone env opts stack [] ⟨[], [], [], 0, opts⟩ := by
  refine ⟨fun _ hp => (List.not_mem_nil hp).elim, HMap.wf_nil, rfl, rfl, env_adjust_self env opts,
    Or.inl rfl, fun _ => tidy_nil, ?_⟩
  intro _ ps hps p hp
  have : ps = [] := List.map_eq_nil_iff.1 hps.all
  rw [this] at hp
  cases hp

theorem optsFor_eq {env : Env} {opts adj : MatchOpts} {s : MultiState} {q : Subquery}
    (hs : env.adjust opts s.opts.zoom = some s.opts) (h : s.optsFor env opts q = some adj) :
    env.adjust opts q.store.zoom = some adj := by
  unfold MultiState.optsFor at h
  split_ifs at h with hz
  · exact h
  · cases h
    rw [not_not] at hz
    rw [← hz]
    exact hs

theorem sorted_stack (stack : List Subquery) :
    (stack.insertionSort fun a b => a.stackKey ≤ b.stackKey).Pairwise
      fun a b => a.stackKey ≤ b.stackKey := by
  have : IsTrans Subquery fun a b => a.stackKey ≤ b.stackKey := ⟨fun _ _ _ => le_trans⟩
  have : Std.Total fun a b : Subquery => a.stackKey ≤ b.stackKey := ⟨fun a b => le_total _ _⟩
  exact List.pairwise_insertionSort _ _

/-- The conditions on the stack of `coalesce_multi`, once sorted. -/
structure SortedOk (env : Env) (stack : List Subquery) : Prop extends MultiOk env stack where
  sorted : stack.Pairwise fun a b => a.stackKey ≤ b.stackKey

theorem not_mem_done {stack done rest : List Subquery} {q : Subquery}
    (hsplit : stack = done ++ q :: rest) (hidx : (stack.map (·.idx)).Nodup) : q ∉ done := by
  intro hq
  rw [hsplit, List.map_append, List.map_cons] at hidx
  exact (List.nodup_append.1 hidx).2.2 q.idx (List.mem_map_of_mem hq) q.idx (by simp) rfl

/-- What the context of a grid holds when grids of the earlier phrase matches contain it: an entry
of each, at least as relevant. -/
theorem StackDone.builds_covers {env : Env} {opts : MatchOpts} {stack done rest : List Subquery}
    {q : Subquery} {s : MultiState} (h : StackDone env opts stack done s) (hst : SortedOk env stack)
    (hsplit : stack = done ++ q :: rest) (hidx : (stack.map (·.idx)).Nodup)
    {ps : List (Subquery × MatchEntry)} {g : MatchEntry} (hps : NestedOn env opts done ps)
    (hin : ∀ p ∈ ps, TileContains (tileOf p.1 p.2) (tileOf q g)) (hg : Answers env opts q g)
    {c : Context} (hc : Builds env stack s.coalesced q g c) :
    ∀ p ∈ ps ++ [(q, g)], ∃ e ∈ c.entries, e.mask = p.1.mask ∧
      p.2.entry.relev * p.1.weight ≤ e.entry.relev := by
  have hq : q ∈ stack := by rw [hsplit]; simp
  have hds : done ⊆ stack := by rw [hsplit]; exact List.subset_append_left _ _
  have hb := hc.best hst.toMultiOk hst.sorted hidx h.ctx (h.tidy hidx) hq hds
    (not_mem_done hsplit hidx) hg
  obtain ⟨hpre, hf⟩ := hc.preCtx hst.toMultiOk h.ctx hq hg
  intro p hp
  rcases List.mem_append.1 hp with hp | hp
  · obtain ⟨d, hd, hdf⟩ := h.covered hidx ps hps p hp
    obtain ⟨e, he, hem, her⟩ := hb.2 _ d (hin p hp) hd
    rw [hdf] at hem her
    exact ⟨e, he, hem, her⟩
  · rw [List.mem_singleton] at hp
    subst hp
    refine ⟨c.first, ?_, by rw [hf]; rfl, by rw [hf]; exact le_refl _⟩
    rw [entries_eq_first_cons hpre.rel.ne]
    exact List.mem_cons_self

theorem StackDone.builds_masks {env : Env} {opts : MatchOpts} {done : List Subquery}
    {q : Subquery} {ps : List (Subquery × MatchEntry)} {g : MatchEntry}
    (hps : NestedOn env opts done ps) {c : Context}
    (h : ∀ p ∈ ps ++ [(q, g)], ∃ e ∈ c.entries, e.mask = p.1.mask ∧
      p.2.entry.relev * p.1.weight ≤ e.entry.relev) :
    ∀ q' ∈ done ++ [q], q'.mask ∈ c.masks := by
  intro q' hq'
  rw [← hps.all, show ps.map Prod.fst ++ [q] = (ps ++ [(q, g)]).map Prod.fst by simp] at hq'
  obtain ⟨p, hp, rfl⟩ := List.mem_map.1 hq'
  obtain ⟨e, he, hem, -⟩ := h p hp
  rw [← hem]
  exact List.mem_map_of_mem he

theorem eq_append_of_map {α β : Type} {f : α → β} {l : List α} {a : List β} {b : β}
    (h : l.map f = a ++ [b]) : ∃ l' x, l = l' ++ [x] ∧ l'.map f = a ∧ f x = b := by
  obtain ⟨l', r, rfl, h1, h2⟩ := List.map_eq_append_iff.1 h
  cases r with
  | nil => cases h2
  | cons x t =>
    rw [List.map_cons, List.cons.injEq, List.map_eq_nil_iff] at h2
    obtain ⟨h2, rfl⟩ := h2
    exact ⟨l', x, rfl, h1, h2⟩

/-- A nested family ending with a grid of the phrase match at hand. -/
theorem NestedOn.split {env : Env} {opts : MatchOpts} {done : List Subquery} {q : Subquery}
    {ps : List (Subquery × MatchEntry)} (h : NestedOn env opts (done ++ [q]) ps) :
    ∃ ps' g, ps = ps' ++ [(q, g)] ∧ NestedOn env opts done ps' ∧
      (∀ p ∈ ps', TileContains (tileOf p.1 p.2) (tileOf q g)) ∧ Among env opts q g := by
  obtain ⟨ps', ⟨q', g⟩, rfl, h1, h2⟩ := eq_append_of_map h.all
  have h2 : q' = q := h2
  subst h2
  have hn := List.pairwise_append.1 h.nested
  refine ⟨ps', g, rfl, ⟨h1, hn.1, fun p hp => h.found p (List.mem_append_left _ hp)⟩, ?_,
    h.found (q', g) (by simp)⟩
  intro p hp
  exact hn.2.2 p hp (q', g) (by simp)

theorem one_lt_length_of_masks {c : Context} {a b : ℕ} (ha : a ∈ c.masks) (hb : b ∈ c.masks)
    (hab : a ≠ b) : 1 < c.entries.length := by
  unfold Context.masks at ha hb
  rcases hc : c.entries with _ | ⟨e, _ | ⟨e', t⟩⟩
  · rw [hc] at ha; cases ha
  · rw [hc] at ha hb
    simp only [List.map_cons, List.map_nil, List.mem_singleton] at ha hb
    exact absurd (ha.trans hb.symm) hab
  · simp

/-- One phrase match that is not the last one. -/
theorem StackDone.step {env : Env} {opts : MatchOpts} {stack done rest : List Subquery}
    {q : Subquery} {s s' : MultiState} {o : IterOrder} (h : StackDone env opts stack done s)
    (hst' : SortedOk env stack) (hsplit : stack = done ++ q :: rest) (hrest : rest ≠ [])
    (hrun : multiStep env o opts stack s done.length q = some s') :
    StackDone env opts stack (done ++ [q]) s' := by
  have hst := hst'.toMultiOk
  have hq : q ∈ stack := by rw [hsplit]; simp
  have hlast : (done.length + 1 == stack.length) = false := by
    rw [beq_eq_false_iff_ne, hsplit, List.length_append, List.length_cons]
    have := List.length_pos_iff.2 hrest
    omega
  unfold multiStep at hrun
  simp only [Option.bind_eq_bind, Option.bind_eq_some_iff, hlast] at hrun
  obtain ⟨adj, hadj, k, hk, grids, hgr, s1, h1, hrun⟩ := hrun
  cases hrun
  have hadj' := optsFor_eq h.optsOk hadj
  have hr := stage h1
  have hans : ∀ g ∈ grids.take maxGridsPerPhrase, Answers env opts q g := fun g hg =>
    ⟨adj, k, grids, hadj', hk, hgr, List.mem_of_mem_take hg⟩
  have hpre : ∀ g ∈ grids.take maxGridsPerPhrase, ∀ c, Builds env stack s.coalesced q g c →
      PreCtx env opts stack (done ++ [q]) (tileOf q g) c := fun g hg c hc =>
    (hc.preCtx hst h.ctx hq (hans g hg)).1.mono (by simp)
  have hold : AllCtx (PreCtx env opts stack (done ++ [q])) s.coalesced :=
    h.ctx.imp fun _ _ hc => hc.mono (by simp)
  have hnew : AllCtx (PreCtx env opts stack (done ++ [q])) s1.toAdd := by
    refine hr.toAdd _ ?_ hpre
    show AllCtx _ s.toAdd
    rw [h.toAdd]
    exact fun _ hp => (List.not_mem_nil hp).elim
  have hco : s1.coalesced = s.coalesced := hr.coalesced
  have hmv := foldl_upsert_all (P := PreCtx env opts stack (done ++ [q])) (l := o.run s1.toAdd)
    (fun p hp => hnew p ((o.perm _).mem_iff.1 hp)) (m := s1.coalesced) (by rw [hco]; exact hold)
    (by rw [hco]; exact h.wf)
  refine ⟨hmv.1, hmv.2, rfl, hr.contexts.trans h.contexts, ?_, ?_, ?_, ?_⟩
  · have : s1.opts = adj := hr.opts
    show env.adjust opts s1.opts.zoom = some s1.opts
    rw [this, env_adjust_zoom hadj']
    exact hadj'
  · show s1.maxRelev = 0 ∨ _
    rcases hr.max with hx | ⟨g, hg, c, hc, hx⟩
    · have hx : s1.maxRelev = s.maxRelev := hx
      rcases h.max with hm | ⟨z, c, hc, hm⟩
      · exact Or.inl (hx.trans hm)
      · exact Or.inr ⟨z, c, hc.mono (by simp), hm.trans hx.symm⟩
    · exact Or.inr ⟨tileOf q g, c, hpre g hg c hc, hx⟩
  · intro hidx
    have hds : done ⊆ stack := by rw [hsplit]; exact List.subset_append_left _ _
    have hsrc : AllCtx (fun z c => ∃ g, Answers env opts q g ∧ z = tileOf q g ∧
        Builds env stack s.coalesced q g c) s1.toAdd := by
      refine hr.toAdd _ ?_ fun g hg c hc => ⟨g, hans g hg, rfl, hc⟩
      show AllCtx _ s.toAdd
      rw [h.toAdd]
      exact fun _ hp => (List.not_mem_nil hp).elim
    refine (h.tidy hidx).next hst hst'.sorted hidx h.ctx hq hds (not_mem_done hsplit hidx)
      (fun z c hc => onTile_moveOver (Or.inl (by rw [hco]; exact hc))) ?_
    intro z cs hf
    obtain ⟨new, hcs, hn⟩ := find_foldl_upsert hf
    rw [hco] at hcs
    refine ⟨new, hcs, fun c hc => ?_⟩
    obtain ⟨p, hp, rfl, hcp⟩ := hn c hc
    exact hsrc p ((o.perm _).mem_iff.1 hp) c hcp
  · intro hidx ps hps
    obtain ⟨ps', g, rfl, hps', hin, hg⟩ := hps.split
    intro p hp
    rcases List.mem_append.1 hp with hp | hp
    · obtain ⟨c, hc, hm⟩ := h.covered hidx ps' hps' p hp
      exact ⟨c, onTile_moveOver (Or.inl (by rw [hco]; exact hc)), hm⟩
    · rw [List.mem_singleton] at hp
      subst hp
      obtain ⟨a', k', gs', e1, e2, e3, hgm⟩ := hg
      rw [hadj', Option.some.injEq] at e1
      rw [hk, Option.some.injEq] at e2
      subst e1 e2
      obtain rfl : grids = gs' := Option.some.inj (hgr.symm.trans e3)
      obtain ⟨c, hc, hadd⟩ := hr.adds g hgm
      have hcov := StackDone.builds_masks hps'
        (h.builds_covers hst' hsplit hidx hps' hin (hans g hgm) hc)
      refine ⟨c, onTile_moveOver (Or.inr (hadd ?_)), (hc.preCtx hst h.ctx hq (hans g hgm)).2⟩
      cases hd : done with
      | nil => left; simp
      | cons q0 t =>
        right
        have hq0 : q0 ∈ done := by rw [hd]; simp
        refine one_lt_length_of_masks (hcov q0 (List.mem_append_left _ hq0)) (hcov q (by simp)) ?_
        intro he
        have hpw := hst.ok.disjoint
        rw [hsplit] at hpw
        have := (List.pairwise_append.1 hpw).2.2 q0 hq0 q (by simp)
        rw [he, Nat.and_self] at this
        exact (hst.ok.covers q hq).1 this

theorem StackDone.run {env : Env} {opts : MatchOpts} {os : ℕ → IterOrder}
    {stack done pre post : List Subquery} {s s' : MultiState} (h : StackDone env opts stack done s)
    (hst : SortedOk env stack) (hsplit : stack = done ++ pre ++ post) (hpost : post ≠ [])
    (hrun : multiLoop env os opts stack done.length (pre ++ post) s = some s') :
    ∃ s1, StackDone env opts stack (done ++ pre) s1 ∧
      multiLoop env os opts stack (done ++ pre).length post s1 = some s' := by
  induction pre generalizing done s with
  | nil => exact ⟨s, by simpa using h, by simpa using hrun⟩
  | cons q t ih =>
    rw [List.cons_append] at hrun
    unfold multiLoop at hrun
    rw [Option.bind_eq_bind, Option.bind_eq_some_iff] at hrun
    obtain ⟨s1, h1, hrun⟩ := hrun
    have hs1 := h.step hst (rest := t ++ post) (by rw [hsplit]; simp)
      (List.append_ne_nil_of_right_ne_nil _ hpost) h1
    have := ih hs1 (by rw [hsplit]; simp) (by simpa using hrun)
    simpa using this

theorem moveOver_coalesced {o : IterOrder} {s : MultiState} (h : s.toAdd = []) :
    (moveOver o s).coalesced = s.coalesced := by
  have : o.run s.toAdd = [] := by
    rw [h]
    exact List.perm_nil.1 (o.perm _)
  show (o.run s.toAdd).foldl _ _ = _
  rw [this]
  rfl

/-- What `coalesce_multi` returns: contexts of earlier phrase matches, and contexts of the last one
after the penalty. And what it does with nested grids. -/
theorem coalesceMulti_summary {env : Env} {os : ℕ → IterOrder} {opts : MatchOpts}
    {stack pre : List Subquery} {l : Subquery}
    (hsort : (stack.insertionSort fun a b => a.stackKey ≤ b.stackKey) = pre ++ [l])
    (hst : MultiOk env (pre ++ [l])) {out : List Context}
    (h : coalesceMulti env os stack opts = some out) :
    (∀ c ∈ out, (∃ z, PreCtx env opts (pre ++ [l]) pre z c) ∨
      ∃ z c', PreCtx env opts (pre ++ [l]) [l] z c' ∧ c = c'.penalize) ∧
    (((pre ++ [l]).map (·.idx)).Nodup → ∀ ps g, NestedOn env opts (pre ++ [l]) (ps ++ [(l, g)]) →
      ∃ z c, PreCtx env opts (pre ++ [l]) [l] z c ∧ c.first = toEntry g l 0 ∧
        (∀ p ∈ ps ++ [(l, g)], ∃ e ∈ c.entries, e.mask = p.1.mask ∧
          p.2.entry.relev * p.1.weight ≤ e.entry.relev) ∧ (c.penalize ∈ out ∨
        ∃ r, (r = 0 ∨ ∃ z d, PreCtx env opts (pre ++ [l]) (pre ++ [l]) z d ∧ d.relev = r) ∧
          F64.flt (r - c.penalize.relev) (lit 0.25) = false)) := by
  unfold coalesceMulti at h
  simp only [Option.bind_eq_bind, Option.bind_eq_some_iff] at h
  obtain ⟨s, hs, h⟩ := h
  cases h
  rw [hsort] at hs
  have hst' : SortedOk env (pre ++ [l]) := ⟨hst, by rw [← hsort]; exact sorted_stack stack⟩
  obtain ⟨s1, hs1, hrun⟩ := (stackDone_init env opts (pre ++ [l])).run hst' (by simp) (by simp) hs
  rw [List.nil_append] at hs1 hrun
  unfold multiLoop multiLoop at hrun
  rw [Option.bind_eq_bind, Option.bind_eq_some_iff] at hrun
  obtain ⟨s2, h2, hrun⟩ := hrun
  cases hrun
  have hl : l ∈ pre ++ [l] := by simp
  have hlast : (pre.length + 1 == (pre ++ [l]).length) = true := by simp
  unfold multiStep at h2
  simp only [Option.bind_eq_bind, Option.bind_eq_some_iff, hlast] at h2
  obtain ⟨adj, hadj, k, hk, grids, hgr, s3, h3, h2⟩ := h2
  cases h2
  have hadj' := optsFor_eq hs1.optsOk hadj
  have hr := lastStage h3
  have hans : ∀ g ∈ grids.take maxGridsPerPhrase, Answers env opts l g := fun g hg =>
    ⟨adj, k, grids, hadj', hk, hgr, List.mem_of_mem_take hg⟩
  have hpre : ∀ g ∈ grids.take maxGridsPerPhrase, ∀ c,
      Builds env (pre ++ [l]) s1.coalesced l g c →
      PreCtx env opts (pre ++ [l]) [l] (tileOf l g) c ∧ c.first = toEntry g l 0 :=
    fun g hg c hc => hc.preCtx hst hs1.ctx hl (hans g hg)
  have hco : (moveOver (os pre.length) s3).coalesced = s1.coalesced := by
    rw [moveOver_coalesced (hr.toAdd.trans hs1.toAdd)]
    exact hr.coalesced
  have hctx : (moveOver (os pre.length) s3).contexts = s3.contexts := rfl
  constructor
  · intro c hc
    rw [(List.perm_insertionSort _ _).mem_iff, List.mem_append] at hc
    rcases hc with hc | hc
    · rw [hctx] at hc
      rcases hr.contexts c hc with hx | ⟨g, hg, c', hb, hx⟩
      · have hx : c ∈ s1.contexts := hx
        rw [hs1.contexts] at hx
        cases hx
      · exact Or.inr ⟨_, c', (hpre g hg c' hb).1, hx⟩
    · obtain ⟨hc, _⟩ := List.mem_filter.1 hc
      obtain ⟨p, hp, hc⟩ := List.mem_flatMap.1 hc
      rw [hco] at hp
      exact Or.inl ⟨p.1, hs1.ctx p ((IterOrder.perm _ _).mem_iff.1 hp) c hc⟩
  · intro hidx ps g hps
    obtain ⟨ps', g', he, hps', hin, hg⟩ := hps.split
    obtain ⟨rfl, he⟩ := List.append_inj' he rfl
    obtain rfl : g = g' := by simpa using he
    obtain ⟨a', k', gs', e1, e2, e3, hgm⟩ := hg
    rw [hadj', Option.some.injEq] at e1
    rw [hk, Option.some.injEq] at e2
    subst e1 e2
    obtain rfl : grids = gs' := Option.some.inj (hgr.symm.trans e3)
    obtain ⟨c, hc, hadd⟩ := hr.adds g hgm
    have hcov := hs1.builds_covers hst' (rest := []) rfl hidx hps' hin (hans g hgm) hc
    refine ⟨_, c, (hpre g hgm c hc).1, (hpre g hgm c hc).2, hcov, ?_⟩
    rcases hadd with hadd | ⟨r, hr', hlt⟩
    · left
      rw [(List.perm_insertionSort _ _).mem_iff, List.mem_append]
      exact Or.inl hadd
    · refine Or.inr ⟨r, ?_, hlt⟩
      rcases hr' with hr' | ⟨g', hg', d, hd, hr'⟩
      · have hr' : r = s1.maxRelev := hr'
        rcases hs1.max with hm | ⟨z, d, hd, hm⟩
        · exact Or.inl (hr'.trans hm)
        · exact Or.inr ⟨z, d, hd.mono (List.subset_append_left _ _), hm.trans hr'.symm⟩
      · exact Or.inr ⟨_, d, (hpre g' hg' d hd).1.mono (List.subset_append_right _ _), hr'⟩

end Carmen
