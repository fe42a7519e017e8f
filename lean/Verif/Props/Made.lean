import Verif.Props.TreeCoalesce
import Verif.Props.Collapse

/-!
# C41 for any request: match keys that share an id, indexes whose zooms do not ascend
-/

namespace Carmen
open Spec

/-- The grid is among the first `limit` results for some match key that has the id of this level's
match key. -/
def Spec.Level.AnswersId (env : Env) (opts : MatchOpts) (pms : List Subquery) (limit : ℕ)
    (l : Level) : Prop :=
  l.node.pm = some l.q ∧ l.kg ∈ l.q.matchKeys ∧ ∃ q ∈ pms, ∃ kg ∈ q.matchKeys, kg.id = l.kg.id ∧
    ∃ o grids, lookupOpts env opts q kg = some o ∧
      env.query q.store kg.key o limit = some grids ∧ l.grid ∈ grids

/-- The grid is the first result with its tile and feature for some match key that has the id of this
level's match key, and among the first 100000. -/
def Spec.Level.FirstAnswerId (env : Env) (opts : MatchOpts) (pms : List Subquery) (l : Level) :
    Prop :=
  l.node.pm = some l.q ∧ l.kg ∈ l.q.matchKeys ∧ ∃ q ∈ pms, ∃ kg ∈ q.matchKeys, kg.id = l.kg.id ∧
    ∃ o before after, lookupOpts env opts q kg = some o ∧
      env.query q.store kg.key o 100000 = some (before ++ l.grid :: after) ∧
      before.length < 100000 ∧
      ∀ g ∈ before, ¬ (g.entry.x = l.grid.entry.x ∧ g.entry.y = l.grid.entry.y ∧
        g.entry.id = l.grid.entry.id)

theorem Spec.Level.FirstAnswerId.answers {env : Env} {opts : MatchOpts} {pms : List Subquery}
    {l : Level} (h : l.FirstAnswerId env opts pms) : l.AnswersId env opts pms 100000 := by
  obtain ⟨h1, h2, q, hq, kg, hkg, hid, o, before, after, h3, h4, _⟩ := h
  exact ⟨h1, h2, q, hq, kg, hkg, hid, o, _, h3, h4, by simp⟩

/-- `StackedFrom` for requests in which ids may be shared; the tiles lie in each other as long as the
zooms ascend. -/
structure Spec.StackedShared (env : Env) (t : StackTree) (opts : MatchOpts) (pms : List Subquery)
    (ls : List Level) (c : Context) : Prop where
  ne : ls ≠ []
  path : TreePath t t.root (ls.map Level.node)
  answers : ∀ l ∈ ls, ∀ limit, (Alone ls → limit = 80) → (¬ Alone ls → limit = 100000) →
    l.AnswersId env opts pms limit
  entries : List.Forall₂ (fun l e => MadeFrom l.q l.grid e ∧ e.phrasematchId = l.kg.id) ls.reverse
    c.entries
  tiles : env.chk = true ∨ ZoomsAscend pms → ls.IsChain fun a b => TileContains a.tile b.tile
  mask : c.mask = unionMask (ls.map (·.q.mask))
  plain : ¬ Penalized ls → c.relev = sumRelev (ls.map Level.relev)
  penalty : Penalized ls → c.relev = sumRelev (ls.map Level.relev) - lit 0.01
  first : ¬ Alone ls → ∀ l ∈ ls, l.FirstAnswerId env opts pms

/-- With unique ids this is `StackedFrom`. -/
theorem Spec.StackedShared.unique {env : Env} {t : StackTree} {opts : MatchOpts}
    {pms : List Subquery} {ls : List Level} {c : Context} (hids : IdsUnique pms)
    (hz : env.chk = true ∨ ZoomsAscend pms) (hpm : ∀ l ∈ ls, l.q ∈ pms)
    (h : StackedShared env t opts pms ls c) : StackedFrom env t opts ls c := by
  refine ⟨h.ne, h.path, fun l hl limit h1 h2 => ?_, h.entries, h.tiles hz, h.mask, h.plain,
    h.penalty, fun hal l hl => ?_⟩
  · obtain ⟨a1, a2, q, hq, kg, hkg, hid, o, grids, h3, h4, h5⟩ := h.answers l hl limit h1 h2
    obtain ⟨e1, e2, e3⟩ := hids q hq l.q (hpm l hl) kg hkg l.kg a2 hid
    refine ⟨a1, a2, o, grids, ?_, ?_, h5⟩
    · rw [← h3]
      unfold lookupOpts
      rw [e1, e3]
    · rw [← h4, e1, e2]
  · obtain ⟨a1, a2, q, hq, kg, hkg, hid, o, before, after, h3, h4, h5⟩ := h.first hal l hl
    obtain ⟨e1, e2, e3⟩ := hids q hq l.q (hpm l hl) kg hkg l.kg a2 hid
    refine ⟨a1, a2, o, before, after, ?_, ?_, h5⟩
    · rw [← h3]
      unfold lookupOpts
      rw [e1, e3]
    · rw [← h4, e1, e2]

/-! ## Proof -/

/-- The context before the penalty. -/
structure SharedBuilt (env : TreeEnv) (t : StackTree) (opts : MatchOpts) (pms : List Subquery)
    (ls : List Level) (c : Context) : Prop where
  path : TreePath t t.root (ls.map Level.node)
  answers : ∀ l ∈ ls, l.FirstAnswerId env.toEnv opts pms
  entries : List.Forall₂ (fun l e => MadeFrom l.q l.grid e ∧ e.phrasematchId = l.kg.id) ls.reverse
    c.entries
  tiles : env.chk = true ∨ ZoomsAscend pms → ls.IsChain fun a b => TileContains a.tile b.tile
  mask : c.mask = unionMask (ls.map (·.q.mask))
  relev : c.relev = sumRelev (ls.map Level.relev)

/-- What is known about a step: the nodes above it, and its contexts. -/
structure SharedStep (env : TreeEnv) (t : StackTree) (opts : MatchOpts) (pms : List Subquery)
    (above : List StackNode) (s : Step) : Prop where
  path : TreePath t t.root (above ++ [s.node])
  pm : s.node.pm = some s.q
  opts_eq : env.adjust opts s.q.store.zoom = some s.opts
  first : s.prev = none → above = []
  prev : ∀ prev, s.prev = some prev → above ≠ [] ∧ ∀ c ∈ prev, ∃ ls l,
    SharedBuilt env t opts pms (ls ++ [l]) c ∧ (ls ++ [l]).map Level.node = above ∧
      l.q.store.zoom = s.prevZoom

/-- The nodes of a path carry phrase matches of the query, of ascending type. -/
theorem path_types {sm : ℕ} {pms : List Subquery} {t : StackTree}
    (hsm : stackableWith sm pms = some t) {p : List StackNode} (hp : TreePath t t.root p) :
    (∀ n ∈ p, ∀ q, n.pm = some q → q ∈ pms) ∧
    p.IsChain fun a b => ∀ q₁ q₂, a.pm = some q₁ → b.pm = some q₂ →
      q₁.store.typeId < q₂.store.typeId := by
  obtain ⟨qs, h1, h2, h3, _⟩ := C30_paths_are_stacks hsm hp
  refine ⟨?_, ?_⟩
  · intro n hn q hq
    have : some q ∈ qs.map some := by
      rw [← h1, ← hq]
      exact List.mem_map_of_mem hn
    obtain ⟨q', hq', h⟩ := List.mem_map.1 this
    cases h
    exact h2 q hq'
  · have h4 : (qs.map some).IsChain fun a b => ∀ q₁ q₂, a = some q₁ → b = some q₂ →
        q₁.store.typeId < q₂.store.typeId := by
      rw [List.isChain_map]
      refine h3.isChain.imp ?_
      intro a b hab q₁ q₂ e1 e2
      cases e1; cases e2
      exact hab
    rw [← h1, List.isChain_map] at h4
    exact h4

theorem SharedBuilt.extend {env : TreeEnv} {t : StackTree} {opts : MatchOpts} {sm : ℕ}
    {pms : List Subquery} (hsm : stackableWith sm pms = some t) {above : List StackNode} {s : Step}
    (hs : SharedStep env t opts pms above s) {ls : List Level} {l : Level} {c : Context}
    (hb : SharedBuilt env t opts pms (ls ++ [l]) c) (habove : (ls ++ [l]).map Level.node = above)
    (hz : l.q.store.zoom = s.prevZoom) {kg : KeyWithId} {g : MatchEntry}
    (ha : Level.FirstAnswerId env.toEnv opts pms ⟨s.node, s.q, kg, g⟩) {scale : ℕ}
    (hsc : scaleFactor env.chk s.q.store.zoom s.prevZoom = some scale)
    (hxy : (c.first.entry.x, c.first.entry.y) = (g.entry.x / scale, g.entry.y / scale)) :
    SharedBuilt env t opts pms (ls ++ [l] ++ [⟨s.node, s.q, kg, g⟩])
      (c.extend s.q (toEntry g s.q kg.id)) := by
  have hpath : TreePath t t.root ((ls ++ [l] ++ [(⟨s.node, s.q, kg, g⟩ : Level)]).map Level.node) := by
    rw [List.map_append, habove]
    exact hs.path
  have hfirst : c.first.entry.x = l.grid.entry.x ∧ c.first.entry.y = l.grid.entry.y := by
    have he := hb.entries
    rw [List.reverse_append, List.reverse_singleton, List.singleton_append] at he
    unfold Context.first
    cases hc : c.entries with
    | nil => rw [hc] at he; cases he
    | cons e t =>
      rw [hc] at he
      cases he with
      | cons h1 h2 => exact ⟨h1.1.2.1, h1.1.2.2.1⟩
  refine ⟨hpath, ?_, ?_, ?_, ?_, ?_⟩
  · intro l' hl'
    rcases List.mem_append.1 hl' with hl' | hl'
    · exact hb.answers l' hl'
    · rw [List.mem_singleton.1 hl']
      exact ha
  · rw [List.reverse_append, List.reverse_singleton, List.singleton_append]
    exact List.Forall₂.cons (toEntry_madeFrom_id _ _ _) hb.entries
  · intro hzs
    have hzoom : env.chk = true ∨
        (s.prevZoom ≤ s.q.store.zoom ∧ s.q.store.zoom < s.prevZoom + 16) := by
      rcases hzs with h | h
      · exact Or.inl h
      · right
        obtain ⟨h1, h3⟩ := path_types hsm hpath
        have hl : l.node.pm = some l.q := (hb.answers l (by simp)).1
        have hlq := h1 l.node (by simp) l.q hl
        have hsq := h1 s.node (by simp) s.q hs.pm
        have ht : l.q.store.typeId < s.q.store.typeId := by
          rw [List.isChain_map, List.append_assoc] at h3
          have h4 := (List.isChain_append.1 h3).2.1
          simp only [List.singleton_append, List.isChain_cons_cons] at h4
          exact h4.1 l.q s.q hl hs.pm
        rw [← hz]
        exact h l.q hlq s.q hsq ht
    obtain ⟨hle, hscale⟩ := scale_some hsc hzoom
    obtain ⟨hx, hy⟩ := hfirst
    rw [Prod.mk.injEq, hx, hy] at hxy
    rw [List.isChain_append]
    refine ⟨hb.tiles hzs, List.isChain_singleton _, ?_⟩
    intro x hx' y hy'
    rw [List.getLast?_concat, Option.mem_some_iff] at hx'
    rw [List.head?_cons, Option.mem_some_iff] at hy'
    rw [← hx', ← hy']
    unfold TileContains Level.tile tileOf
    simp only
    rw [hz, ← hscale]
    exact ⟨hle, hxy⟩
  · rw [List.map_append, List.map_singleton, unionMask_append, ← hb.mask]
    rfl
  · rw [List.map_append]
    show c.relev + _ = _
    rw [List.map_singleton, sumRelev_concat (by simp), ← hb.relev]
    rfl

theorem expandKey_shared {env : TreeEnv} {t : StackTree} {opts : MatchOpts} {sm : ℕ}
    {pms : List Subquery} (hsm : stackableWith sm pms = some t) {cache : HMap ℕ (List MatchEntry)}
    (hc : CacheOk env opts pms cache) {above : List StackNode} {s : Step}
    (hs : SharedStep env t opts pms above s) {scale : ℕ}
    (hsc : scaleFactor env.chk s.q.store.zoom s.prevZoom = some scale) {kg : KeyWithId}
    (hkg : kg ∈ s.q.matchKeys) {cs : List Context}
    (h : expandKey env cache s scale kg = some cs) :
    ∀ c ∈ cs, ∃ ls l, SharedBuilt env t opts pms (ls ++ [l]) c ∧
      (ls ++ [l]).map Level.node = above ++ [s.node] ∧ l.q = s.q := by
  unfold expandKey at h
  cases hf : HMap.find kg.id cache with
  | none =>
    rw [hf] at h
    cases h
    intro c hcc
    cases hcc
  | some grids =>
    rw [hf, Option.map_eq_some_iff] at h
    obtain ⟨es, hes, rfl⟩ := h
    intro c hcc
    obtain ⟨e, he, hce⟩ := List.mem_flatMap.1 hcc
    obtain ⟨g, hg, hge⟩ := mapM_mem hes e he
    rw [mkEntry_some hge] at hce
    obtain ⟨q', hq', kg', hkg', hid, o, all, h1, h2, h3⟩ := hc _ (HMap.mem_of_find hf)
    have ha : Level.FirstAnswerId env.toEnv opts pms ⟨s.node, s.q, kg, g⟩ :=
      let ⟨before, after, h4, h5, h6⟩ := h3 g hg
      ⟨hs.pm, hkg, q', hq', kg', hkg', hid, o, before, after, h1, h4 ▸ h2, h5, h6⟩
    unfold newContexts at hce
    cases hp : s.prev with
    | none =>
      rw [hp] at hce
      rw [List.mem_singleton.1 hce, hs.first hp]
      refine ⟨[], ⟨s.node, s.q, kg, g⟩, ?_, rfl, rfl⟩
      have := hs.path
      rw [hs.first hp] at this
      refine ⟨this, ?_, List.Forall₂.cons (toEntry_madeFrom_id _ _ _) List.Forall₂.nil,
        fun _ => List.isChain_singleton _, (Nat.or_zero _).symm, rfl⟩
      intro l hl
      rw [List.mem_singleton.1 hl]
      exact ha
    | some prev =>
      rw [hp] at hce
      obtain ⟨c0, hc0, rfl⟩ := List.mem_map.1 hce
      obtain ⟨hmem, hxy⟩ := mem_parentsOf hc0
      obtain ⟨ls, l, hb, hnodes, hz⟩ := (hs.prev prev hp).2 c0 hmem
      refine ⟨ls ++ [l], ⟨s.node, s.q, kg, g⟩, hb.extend hsm hs hnodes hz ha hsc hxy, ?_, rfl⟩
      rw [List.map_append, hnodes]
      rfl

theorem nextSteps_shared {env : TreeEnv} {t : StackTree} {opts : MatchOpts} {pms : List Subquery}
    {above : List StackNode} {s : Step} (hs : SharedStep env t opts pms above s)
    {groups : List (List Context)}
    (hg : ∀ g ∈ groups, ∀ c ∈ g, ∃ ls l, SharedBuilt env t opts pms (ls ++ [l]) c ∧
      (ls ++ [l]).map Level.node = above ++ [s.node] ∧ l.q = s.q) {ss : List Step}
    (h : nextSteps env t opts s groups = some ss) :
    ∀ s' ∈ ss, SharedStep env t opts pms (above ++ [s.node]) s' := by
  unfold nextSteps at h
  intro s' hs'
  split_ifs at h with h0
  · rw [← Option.some.inj h] at hs'
    cases hs'
  · rw [Option.map_eq_some_iff] at h
    obtain ⟨os, hos, rfl⟩ := h
    obtain ⟨o, ho, rfl⟩ := List.mem_filterMap.1 hs'
    obtain ⟨c, hc, hcs⟩ := mapM_mem hos _ ho
    obtain ⟨h1, h2, h3, h4, h5, h6⟩ := nextStep_some hcs
    refine ⟨?_, h3, h6, ?_, ?_⟩
    · rw [treePath_append]
      refine ⟨hs.path, ?_⟩
      rw [List.getLast?_concat, Option.getD_some]
      exact ⟨⟨c, hc, h1⟩, trivial⟩
    · intro hn
      rw [h4] at hn
      cases hn
    · intro prev hp
      rw [h4] at hp
      rw [← Option.some.inj hp]
      refine ⟨by simp, ?_⟩
      intro c' hc'
      obtain ⟨g, hgm, hcg⟩ := stateContexts_subset hc'
      obtain ⟨ls, l, hb, hn, hq⟩ := hg g hgm c' hcg
      exact ⟨ls, l, hb, hn, by rw [hq, h5]⟩

theorem SharedBuilt.penalize {env : TreeEnv} {t : StackTree} {opts : MatchOpts}
    {pms : List Subquery} {ls : List Level} {l : Level} {c : Context}
    (h : SharedBuilt env t opts pms (ls ++ [l]) c) (hn : ls = [] → l.node.children ≠ []) :
    StackedShared env.toEnv t opts pms (ls ++ [l]) c.penalize := by
  obtain ⟨hent, hmask, halone, hrel⟩ := penalize_fields h.entries hn
  refine ⟨by simp, h.path, ?_, by rw [hent]; exact h.entries, h.tiles, by rw [hmask]; exact h.mask,
    ?_, ?_, fun _ => h.answers⟩
  · intro l' hl' limit _ hlim
    rw [hlim halone]
    exact (h.answers l' hl').answers
  · intro hp
    rw [hrel.2 hp]
    exact h.relev
  · intro hp
    rw [hrel.1 hp, h.relev]

/-- What a result of phase 1 is. -/
def FetchedShared (env : TreeEnv) (t : StackTree) (opts : MatchOpts) (pms : List Subquery) :
    Fetched → Prop
  | .single cs => ∀ c ∈ cs, ∃ ls, StackedShared env.toEnv t opts pms ls c
  | .multi id data => ∃ q ∈ pms, ∃ kg ∈ q.matchKeys, kg.id = id ∧
      ∃ o grids, lookupOpts env.toEnv opts q kg = some o ∧
        env.query q.store kg.key o 100000 = some grids ∧ ∀ g ∈ data, FirstGrid grids g

theorem fetchKey_shared {env : TreeEnv} {t : StackTree} {opts : MatchOpts} {sm : ℕ}
    {pms : List Subquery} (hsm : stackableWith sm pms = some t) {above : List StackNode} {s : Step}
    (hs : SharedStep env t opts pms above s) {k : FetchKey} (hk : KeyOf env.chk s k) {r : Fetched}
    (h : fetchKey env k = some r) : FetchedShared env t opts pms r := by
  have hlook : lookupOpts env.toEnv opts k.q k.kg = some k.opts := by
    rw [hk.q]
    exact keyOpts_lookup (env := env.toEnv) hs.opts_eq hk.opts
  have hkg : k.kg ∈ k.q.matchKeys := by rw [hk.q]; exact hk.kg
  have hq : k.q ∈ pms := by
    rw [hk.q]
    exact (path_types hsm hs.path).1 s.node (by simp) s.q hs.pm
  unfold fetchKey at h
  by_cases hsing : k.single = true
  · rw [if_pos hsing] at h
    simp only [Option.bind_eq_bind, Option.bind_eq_some_iff] at h
    obtain ⟨grids, hgr, cs, hcs, h⟩ := h
    cases h
    have hsi : s.isSingle = true := hk.single ▸ hsing
    unfold Step.isSingle at hsi
    simp only [Bool.and_eq_true, Option.isNone_iff_eq_none, beq_iff_eq] at hsi
    have hpath := hs.path
    rw [hs.first hsi.1, List.nil_append] at hpath
    intro c hc
    rcases mem_cpqPushAll _ hc with hc | hc
    · obtain ⟨g, hg, rfl⟩ := treeSingle_made hcs c hc
      have hst := single_stacked hpath (List.length_eq_zero_iff.1 hsi.2)
        (env := env) (opts := opts) (q := k.q) (kg := k.kg) (g := g)
        ⟨by rw [hk.q]; exact hs.pm, hkg, k.opts, grids, hlook, hgr, hg⟩
      refine ⟨_, hst.ne, hst.path, fun l hl limit h1 h2 => ?_, hst.entries, fun _ => hst.tiles,
        hst.mask, hst.plain, hst.penalty, fun h => absurd ⟨_, rfl, List.length_eq_zero_iff.1 hsi.2⟩ h⟩
      obtain ⟨a1, a2, o, gs, a3, a4, a5⟩ := hst.answers l hl limit h1 h2
      rw [List.mem_singleton.1 hl] at a1 a2 a3 a4 a5 ⊢
      exact ⟨a1, a2, k.q, hq, k.kg, hkg, rfl, o, gs, a3, a4, a5⟩
    · cases hc
  · rw [if_neg hsing] at h
    simp only [Option.bind_eq_bind, Option.bind_eq_some_iff] at h
    obtain ⟨grids, hgr, h⟩ := h
    cases h
    exact ⟨k.q, hq, k.kg, hkg, rfl, k.opts, grids, hlook, hgr,
      fun g hg => firstGrid_of_keepFirst hg⟩

theorem absorb_shared {env : TreeEnv} {t : StackTree} {opts : MatchOpts} {pms : List Subquery}
    {results : List Fetched} (hres : ∀ r ∈ results, FetchedShared env t opts pms r)
    {s : List Context × HMap ℕ (List MatchEntry)}
    (h1 : ∀ c ∈ s.1, ∃ ls, StackedShared env.toEnv t opts pms ls c) (h2 : CacheOk env opts pms s.2) :
    (∀ c ∈ (results.foldl (absorbFetched env) s).1,
      ∃ ls, StackedShared env.toEnv t opts pms ls c) ∧
      CacheOk env opts pms (results.foldl (absorbFetched env) s).2 := by
  induction results generalizing s with
  | nil => exact ⟨h1, h2⟩
  | cons r rs ih =>
    rw [List.foldl_cons]
    refine ih (fun r' hr' => hres r' (List.mem_cons_of_mem _ hr')) ?_ ?_
    · have := hres r (by simp)
      cases r with
      | single cs =>
        intro c hc
        rcases mem_cpqPushAll _ hc with hc | hc
        · exact this c hc
        · exact h1 c hc
      | multi id data => exact h1
    · have := hres r (by simp)
      cases r with
      | single cs => exact h2
      | multi id data =>
        refine fun p hp => HMap.forall_upsert (P := fun id (data : List MatchEntry) =>
          ∃ q ∈ pms, ∃ kg ∈ q.matchKeys, kg.id = id ∧
            ∃ o grids, lookupOpts env.toEnv opts q kg = some o ∧
              env.query q.store kg.key o 100000 = some grids ∧ ∀ g ∈ data, FirstGrid grids g)
          h2 this (fun _ _ => this) p hp

/-- The invariant of the loop. -/
structure SharedInv (env : TreeEnv) (t : StackTree) (opts : MatchOpts) (pms : List Subquery)
    (s : TreeState) : Prop where
  contexts : ∀ c ∈ s.contexts, ∃ ls, StackedShared env.toEnv t opts pms ls c
  steps : ∀ st ∈ s.steps, ∃ above, SharedStep env t opts pms above st
  cache : CacheOk env opts pms s.cache

theorem SharedInv.round {env : TreeEnv} {t : StackTree} {opts : MatchOpts} {sm : ℕ}
    {pms : List Subquery} (hsm : stackableWith sm pms = some t)
    {s s' : TreeState} (hi : SharedInv env t opts pms s)
    {taken : List Step} {keys : List FetchKey} {results : List Fetched}
    {expanded : List (List Context × List Step)}
    (h : Round env t opts s s' taken keys results expanded) : SharedInv env t opts pms s' := by
  have htaken : ∀ st ∈ taken, ∃ above, SharedStep env t opts pms above st := fun st hst =>
    hi.steps st (h.steps.mem_iff.2 (by simp [hst]))
  have hres : ∀ r ∈ results, FetchedShared env t opts pms r := by
    intro r hrr
    obtain ⟨k, hk, hkr⟩ := mapM_mem h.got r hrr
    obtain ⟨st, hst, hks⟩ := h.of_keys k hk
    obtain ⟨above, hab⟩ := htaken st hst
    exact fetchKey_shared hsm hab hks hkr
  obtain ⟨hc1, hc2⟩ := absorb_shared (s := (s.contexts, s.cache)) hres hi.contexts hi.cache
  have hcache : CacheOk env opts pms s'.cache := by rw [h.cache]; exact hc2
  have hexp : ∀ r ∈ expanded, (∀ c ∈ r.1, ∃ ls, StackedShared env.toEnv t opts pms ls c) ∧
      ∀ st ∈ r.2, ∃ above, SharedStep env t opts pms above st := by
    intro r hrr
    obtain ⟨st, hst, hre⟩ := mapM_mem h.grown r hrr
    rw [List.mem_filter] at hst
    obtain ⟨above, hfrom⟩ := htaken st hst.1
    obtain ⟨scale, groups, e1, e2, e3, e4⟩ := expandStep_some hre
    have hgroups : ∀ g ∈ groups, ∀ c ∈ g, ∃ ls l, SharedBuilt env t opts pms (ls ++ [l]) c ∧
        (ls ++ [l]).map Level.node = above ++ [st.node] ∧ l.q = st.q := by
      intro g hg
      obtain ⟨kg, hkg, hge⟩ := mapM_mem e2 g hg
      exact expandKey_shared hsm hcache hfrom e1 hkg hge
    refine ⟨?_, fun st' hst' => ⟨_, nextSteps_shared hfrom hgroups e3 st' hst'⟩⟩
    intro c hc
    rw [e4] at hc
    obtain ⟨g, hg, hc⟩ := List.mem_flatMap.1 hc
    rcases mem_cpqPushAll _ hc with hc | hc
    · obtain ⟨c0, hc0, rfl⟩ := List.mem_map.1 hc
      obtain ⟨ls, l, hb, hn, hq⟩ := hgroups g hg c0 hc0
      refine ⟨_, hb.penalize ?_⟩
      intro hls
      subst hls
      have hlen := congrArg List.length hn
      simp only [List.nil_append, List.map_cons, List.map_nil, List.length_append,
        List.length_cons, List.length_nil] at hlen
      have hab : above = [] := List.length_eq_zero_iff.1 (by omega)
      rw [hab] at hn
      simp only [List.nil_append, List.map_cons, List.map_nil, List.cons.injEq, and_true] at hn
      have hsi := hst.2
      unfold Step.isSingle at hsi
      have hpn : st.prev = none := by
        cases hp : st.prev with
        | none => rfl
        | some prev => exact absurd hab (hfrom.prev prev hp).1
      rw [hpn] at hsi
      rw [hn]
      intro hcn
      rw [hcn] at hsi
      simp at hsi
    · cases hc
  refine ⟨?_, ?_, hcache⟩
  · intro c hc
    rw [h.contexts] at hc
    rcases mem_cpqPushAll _ hc with hc | hc
    · obtain ⟨r, hr, hc⟩ := List.mem_flatMap.1 hc
      exact (hexp r hr).1 c hc
    · exact hc1 c hc
  · intro st hst
    rcases List.mem_append.1 (h.next.mem_iff.1 hst) with hst | hst
    · obtain ⟨r, hr, hst⟩ := List.mem_flatMap.1 hst
      exact (hexp r hr).2 st hst
    · exact hi.steps st (h.steps.mem_iff.2 (by simp [hst]))

/-- **C41** for any request whatsoever: every context returned is stacked from one grid for each
phrase match on a path of the tree, where a grid may have been returned for another match key with
the same id. -/
theorem C41_any_request {env : TreeEnv} {sm : ℕ} {pms : List Subquery} {t : StackTree}
    {opts : MatchOpts} {out : List Context} (h : stackableWith sm pms = some t)
    (hout : treeCoalesce env t opts = some out) :
    ∀ c ∈ out, ∃ ls, StackedShared env.toEnv t opts pms ls c := by
  obtain ⟨s₀, s, h1, h2, rfl⟩ := treeCoalesce_some hout
  have h0 : SharedInv env t opts pms s₀ := by
    obtain ⟨ss, hss, hp, h3, h4, _⟩ := treeInit_some h1
    refine ⟨by rw [h3]; simp, ?_, by rw [h4]; intro p hp; cases hp⟩
    intro st hst
    obtain ⟨f1, f2, f3, f4, f5, f6⟩ := (firstSteps_some hss).2 st (hp.mem_iff.1 hst)
    refine ⟨[], ⟨⟨st.ix, f2, f1⟩, trivial⟩, f3, f6, fun _ => rfl, ?_⟩
    intro prev hpr
    rw [f4] at hpr
    cases hpr
  have hi := treeLoop_induct (P := SharedInv env t opts pms)
    (fun _ _ _ _ _ _ hs _ hround => hs.round h hround) _ h0 h2
  intro c hc
  exact hi.contexts c ((env.contexts.intoVecDesc_perm _).mem_iff.1 hc)

end Carmen
