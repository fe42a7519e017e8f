import Verif.Lemmas.TreeRound
import Verif.Lemmas.StackPath
import Verif.Lemmas.CoalesceMulti
import Verif.Spec.TreeCoalesce
import Verif.Props.Zoom
import Verif.Props.Stack

/-!
# Where the contexts of `tree_coalesce` come from
-/

namespace Carmen
open Spec

theorem mem_cpqPushAll {α K : Type} [LinearOrder K] {key : α → K} (H : Heap key) {n : ℕ}
    {q es : List α} {a : α} (h : a ∈ cpqPushAll H n q es) : a ∈ es ∨ a ∈ q := by
  unfold cpqPushAll at h
  induction es generalizing q with
  | nil => exact Or.inr h
  | cons e t ih =>
    rw [List.foldl_cons] at h
    rcases ih h with h | h
    · exact Or.inl (List.mem_cons_of_mem _ h)
    · rcases mem_cpqPush H h with rfl | h
      · exact Or.inl (by simp)
      · exact Or.inr h

theorem mem_keepFirst {α K : Type} [DecidableEq K] {key : α → K} {seen : List K} {l : List α}
    {a : α} (h : a ∈ keepFirst key seen l) : a ∈ l := by
  induction l generalizing seen with
  | nil => cases h
  | cons b t ih =>
    unfold keepFirst at h
    split_ifs at h
    · exact List.mem_cons_of_mem _ (ih h)
    · rcases List.mem_cons.1 h with rfl | h
      · exact List.mem_cons_self
      · exact List.mem_cons_of_mem _ (ih h)

/-- The grid is the first one of its tile and feature, and among the first 100000. -/
def FirstGrid (all : List MatchEntry) (g : MatchEntry) : Prop :=
  ∃ before after, all = before ++ g :: after ∧ before.length < 100000 ∧
    ∀ g' ∈ before, ¬ (g'.entry.x = g.entry.x ∧ g'.entry.y = g.entry.y ∧ g'.entry.id = g.entry.id)

theorem FirstGrid.mem {all : List MatchEntry} {g : MatchEntry} (h : FirstGrid all g) : g ∈ all := by
  obtain ⟨before, after, rfl, _⟩ := h
  simp

theorem keepFirst_split {α K : Type} [DecidableEq K] {key : α → K} {seen : List K} {l : List α}
    {a : α} (h : a ∈ keepFirst key seen l) :
    key a ∉ seen ∧ ∃ before after, l = before ++ a :: after ∧ ∀ b ∈ before, key b ≠ key a := by
  induction l generalizing seen with
  | nil => cases h
  | cons b t ih =>
    unfold keepFirst at h
    split_ifs at h with hb
    · obtain ⟨h1, before, after, rfl, h2⟩ := ih h
      refine ⟨h1, b :: before, after, rfl, ?_⟩
      intro b' hb'
      rcases List.mem_cons.1 hb' with rfl | hb'
      · intro he
        rw [he] at hb
        exact h1 hb
      · exact h2 b' hb'
    · rcases List.mem_cons.1 h with rfl | h
      · exact ⟨hb, [], t, rfl, by simp⟩
      · obtain ⟨h1, before, after, rfl, h2⟩ := ih h
        refine ⟨fun h => h1 (List.mem_cons_of_mem _ h), b :: before, after, rfl, ?_⟩
        intro b' hb'
        rcases List.mem_cons.1 hb' with rfl | hb'
        · intro he
          rw [← he] at h1
          exact h1 (by simp)
        · exact h2 b' hb'

theorem firstGrid_of_keepFirst {grids : List MatchEntry} {g : MatchEntry}
    (h : g ∈ keepFirst (fun g : MatchEntry => (g.entry.x, g.entry.y, g.entry.id)) []
      (grids.take 100000)) : FirstGrid grids g := by
  obtain ⟨_, before, after, he, h2⟩ := keepFirst_split h
  refine ⟨before, after ++ grids.drop 100000, ?_, ?_, ?_⟩
  · conv_lhs => rw [← List.take_append_drop 100000 grids, he]
    simp
  · have := congrArg List.length he
    rw [List.length_take, List.length_append, List.length_cons] at this
    omega
  · rintro g' hg' ⟨e1, e2, e3⟩
    exact h2 g' hg' (by simp only [e1, e2, e3])

theorem Spec.Level.FirstAnswer.answers {env : Env} {opts : MatchOpts} {l : Level}
    (h : l.FirstAnswer env opts) : l.Answers env opts 100000 := by
  obtain ⟨h1, h2, o, before, after, h3, h4, _⟩ := h
  exact ⟨h1, h2, o, _, h3, h4, by simp⟩

theorem keyOpts_lookup {env : Env} {opts o o' : MatchOpts} {q : Subquery} {kg : KeyWithId}
    (ho : env.adjust opts q.store.zoom = some o) (h : keyOpts env.chk kg o = some o') :
    lookupOpts env opts q kg = some o' := by
  unfold lookupOpts
  rw [ho, Option.bind_some]
  unfold keyOpts at h
  cases hn : kg.nearbyOnly <;> cases hc : env.chk <;> simp_all

theorem sumRelev_concat {l : List F64} (h : l ≠ []) (a : F64) :
    sumRelev (l ++ [a]) = sumRelev l + a := by
  cases l with
  | nil => exact absurd rfl h
  | cons b t => rw [List.cons_append]; simp only [sumRelev, List.foldl_concat]

/-! ## Assumptions about the phrase matches -/

/-- What is fixed during a run. -/
structure RunOk (env : TreeEnv) (t : StackTree) (opts : MatchOpts) (pms : List Subquery) :
    Prop where
  tree : ∃ sm, stackableWith sm pms = some t
  ids : IdsUnique pms
  zooms : env.chk = true ∨ ZoomsAscend pms

/-- The context before the penalty. -/
structure TreeBuilt (env : TreeEnv) (t : StackTree) (opts : MatchOpts) (ls : List Level)
    (c : Context) : Prop where
  path : TreePath t t.root (ls.map Level.node)
  answers : ∀ l ∈ ls, l.FirstAnswer env.toEnv opts
  entries : List.Forall₂ (fun l e => MadeFrom l.q l.grid e ∧ e.phrasematchId = l.kg.id) ls.reverse
    c.entries
  tiles : ls.IsChain fun a b => TileContains a.tile b.tile
  mask : c.mask = unionMask (ls.map (·.q.mask))
  relev : c.relev = sumRelev (ls.map Level.relev)

/-- What is known about a step: the nodes above it, and its contexts. -/
structure StepFrom (env : TreeEnv) (t : StackTree) (opts : MatchOpts) (above : List StackNode)
    (s : Step) : Prop where
  path : TreePath t t.root (above ++ [s.node])
  pm : s.node.pm = some s.q
  opts_eq : env.adjust opts s.q.store.zoom = some s.opts
  first : s.prev = none → above = []
  prev : ∀ prev, s.prev = some prev → above ≠ [] ∧ ∀ c ∈ prev, ∃ ls l,
    TreeBuilt env t opts (ls ++ [l]) c ∧ (ls ++ [l]).map Level.node = above ∧
      l.q.store.zoom = s.prevZoom

/-- A step of the tree. -/
def StepOk (env : TreeEnv) (t : StackTree) (opts : MatchOpts) (s : Step) : Prop :=
  ∃ above, StepFrom env t opts above s

/-- What the cache holds. -/
def CacheOk (env : TreeEnv) (opts : MatchOpts) (pms : List Subquery)
    (cache : HMap ℕ (List MatchEntry)) : Prop :=
  ∀ p ∈ cache, ∃ q ∈ pms, ∃ kg ∈ q.matchKeys, kg.id = p.1 ∧
    ∃ o grids, lookupOpts env.toEnv opts q kg = some o ∧
      env.query q.store kg.key o 100000 = some grids ∧ ∀ g ∈ p.2, FirstGrid grids g

theorem path_pms {env : TreeEnv} {t : StackTree} {opts : MatchOpts} {pms : List Subquery}
    (hr : RunOk env t opts pms) {p : List StackNode} (hp : TreePath t t.root p) :
    (∀ n ∈ p, ∀ q, n.pm = some q → q ∈ pms) ∧
    (∀ n ∈ p, ∃ q, n.pm = some q) ∧
    p.IsChain fun a b => ∀ q₁ q₂, a.pm = some q₁ → b.pm = some q₂ →
      q₁.store.typeId < q₂.store.typeId := by
  obtain ⟨sm, hsm⟩ := hr.tree
  obtain ⟨qs, h1, h2, h3, _⟩ := C30_paths_are_stacks hsm hp
  refine ⟨?_, ?_, ?_⟩
  · intro n hn q hq
    have : some q ∈ qs.map some := by
      rw [← h1, ← hq]
      exact List.mem_map_of_mem hn
    obtain ⟨q', hq', h⟩ := List.mem_map.1 this
    cases h
    exact h2 q hq'
  · intro n hn
    have : n.pm ∈ qs.map some := by
      rw [← h1]
      exact List.mem_map_of_mem hn
    obtain ⟨q', hq', h⟩ := List.mem_map.1 this
    exact ⟨q', h.symm⟩
  · have h4 : (qs.map some).IsChain fun a b => ∀ q₁ q₂, a = some q₁ → b = some q₂ →
        q₁.store.typeId < q₂.store.typeId := by
      rw [List.isChain_map]
      refine h3.isChain.imp ?_
      intro a b hab q₁ q₂ e1 e2
      cases e1; cases e2
      exact hab
    rw [← h1, List.isChain_map] at h4
    exact h4

/-- The grids of a match key of a phrase match in the cache answer it. -/
theorem cache_answers {env : TreeEnv} {t : StackTree} {opts : MatchOpts} {pms : List Subquery}
    (hr : RunOk env t opts pms) {cache : HMap ℕ (List MatchEntry)}
    (hc : CacheOk env opts pms cache) {q : Subquery} (hq : q ∈ pms) {kg : KeyWithId}
    (hk : kg ∈ q.matchKeys) {grids : List MatchEntry} (hf : HMap.find kg.id cache = some grids) :
    ∃ o all, lookupOpts env.toEnv opts q kg = some o ∧
      env.query q.store kg.key o 100000 = some all ∧ ∀ g ∈ grids, FirstGrid all g := by
  obtain ⟨q', hq', kg', hk', hid, o, all, h1, h2, h3⟩ := hc _ (HMap.mem_of_find hf)
  obtain ⟨e1, e2, e3⟩ := hr.ids q' hq' q hq kg' hk' kg hk hid
  refine ⟨o, all, ?_, ?_, h3⟩
  · rw [← h1]
    unfold lookupOpts
    rw [e1, e3]
  · rw [← h2, e1, e2]

/-! ## Phase 2 -/

theorem mem_parentsOf {bush : Bush} {prev : List Context} {p : ℕ × ℕ} {c : Context}
    (h : c ∈ parentsOf bush prev p) :
    c ∈ prev ∧ (c.first.entry.x, c.first.entry.y) = p := by
  unfold parentsOf at h
  obtain ⟨i, hi, hc⟩ := List.mem_filterMap.1 h
  have hi := (bush.exact_perm (points prev) p).mem_iff.1 hi
  rw [List.mem_filter] at hi
  have hi := of_decide_eq_true hi.2
  unfold points at hi
  rw [List.getElem?_map, hc, Option.map_some, Option.some.injEq] at hi
  exact ⟨List.mem_of_getElem? hc, hi⟩

theorem scale_some {chk : Bool} {zoom prevZoom scale : ℕ}
    (h : scaleFactor chk zoom prevZoom = some scale)
    (hz : chk = true ∨ (prevZoom ≤ zoom ∧ zoom < prevZoom + 16)) :
    prevZoom ≤ zoom ∧ scale = 2 ^ (zoom - prevZoom) := by
  unfold scaleFactor at h
  cases hc : chk with
  | true =>
    rw [hc, if_pos rfl] at h
    split_ifs at h with h1
    cases h
    exact ⟨h1.1, Nat.one_shiftLeft _⟩
  | false =>
    rw [hc] at h hz
    rcases hz with hz | ⟨h1, h2⟩
    · cases hz
    · rw [if_neg (by simp)] at h
      cases h
      refine ⟨h1, ?_⟩
      have : (zoom + 2 ^ 16 - prevZoom) % 2 ^ 16 = zoom - prevZoom := by
        rw [show zoom + 2 ^ 16 - prevZoom = (zoom - prevZoom) + 2 ^ 16 by omega,
          Nat.add_mod_right]
        exact Nat.mod_eq_of_lt (by omega)
      rw [this, oneShl16_eq (by omega)]

theorem toEntry_madeFrom_id (q : Subquery) (g : MatchEntry) (pid : ℕ) :
    MadeFrom q g (toEntry g q pid) ∧ (toEntry g q pid).phrasematchId = pid :=
  ⟨⟨rfl, rfl, rfl, rfl, rfl, rfl, rfl, rfl, rfl, tmpIdOf_eq _ _, rfl, rfl⟩, rfl⟩

theorem TreeBuilt.first {env : TreeEnv} {t : StackTree} {opts : MatchOpts} {ls : List Level}
    {l : Level} {c : Context} (h : TreeBuilt env t opts (ls ++ [l]) c) :
    c.first.entry.x = l.grid.entry.x ∧ c.first.entry.y = l.grid.entry.y := by
  have he := h.entries
  rw [List.reverse_append, List.reverse_singleton, List.singleton_append] at he
  unfold Context.first
  cases hc : c.entries with
  | nil => rw [hc] at he; cases he
  | cons e t =>
    rw [hc] at he
    cases he with
    | cons h1 h2 => exact ⟨h1.1.2.1, h1.1.2.2.1⟩

theorem TreeBuilt.extend {env : TreeEnv} {t : StackTree} {opts : MatchOpts} {pms : List Subquery}
    (hr : RunOk env t opts pms) {above : List StackNode} {s : Step}
    (hs : StepFrom env t opts above s) {ls : List Level} {l : Level} {c : Context}
    (hb : TreeBuilt env t opts (ls ++ [l]) c) (habove : (ls ++ [l]).map Level.node = above)
    (hz : l.q.store.zoom = s.prevZoom) {kg : KeyWithId} {g : MatchEntry}
    (ha : Level.FirstAnswer env.toEnv opts ⟨s.node, s.q, kg, g⟩) {scale : ℕ}
    (hsc : scaleFactor env.chk s.q.store.zoom s.prevZoom = some scale)
    (hxy : (c.first.entry.x, c.first.entry.y) = (g.entry.x / scale, g.entry.y / scale)) :
    TreeBuilt env t opts (ls ++ [l] ++ [⟨s.node, s.q, kg, g⟩])
      (c.extend s.q (toEntry g s.q kg.id)) := by
  have hpath : TreePath t t.root ((ls ++ [l] ++ [(⟨s.node, s.q, kg, g⟩ : Level)]).map Level.node) := by
    rw [List.map_append, habove]
    exact hs.path
  have hzoom : env.chk = true ∨
      (s.prevZoom ≤ s.q.store.zoom ∧ s.q.store.zoom < s.prevZoom + 16) := by
    rcases hr.zooms with h | h
    · exact Or.inl h
    · right
      obtain ⟨h1, _, h3⟩ := path_pms hr hpath
      have hl : l.node.pm = some l.q := (hb.answers l (by simp)).1
      have hlq := h1 l.node (by simp) l.q hl
      have hsq := h1 s.node (by simp) s.q hs.pm
      have ht : l.q.store.typeId < s.q.store.typeId := by
        rw [List.isChain_map, List.append_assoc] at h3
        have h4 := (List.isChain_append.1 h3).2.1
        simp only [List.singleton_append, List.isChain_cons_cons] at h4
        exact h4.1 l.q s.q hl hs.pm
      rw [← hz]
      exact h l.q hlq s.q hsq ht
  obtain ⟨hle, hscale⟩ := scale_some hsc hzoom
  obtain ⟨hx, hy⟩ := hb.first
  rw [Prod.mk.injEq, hx, hy] at hxy
  refine ⟨hpath, ?_, ?_, ?_, ?_, ?_⟩
  · intro l' hl'
    rcases List.mem_append.1 hl' with hl' | hl'
    · exact hb.answers l' hl'
    · rw [List.mem_singleton.1 hl']
      exact ha
  · rw [List.reverse_append, List.reverse_singleton, List.singleton_append]
    exact List.Forall₂.cons (toEntry_madeFrom_id _ _ _) hb.entries
  · rw [List.isChain_append]
    refine ⟨hb.tiles, List.isChain_singleton _, ?_⟩
    intro x hx' y hy'
    rw [List.getLast?_concat, Option.mem_some_iff] at hx'
    rw [List.head?_cons, Option.mem_some_iff] at hy'
    rw [← hx', ← hy']
    unfold TileContains Level.tile tileOf
    simp only
    rw [hz, ← hscale]
    exact ⟨hle, hxy⟩
  · rw [List.map_append, List.map_singleton, unionMask_append, ← hb.mask]
    rfl
  · rw [List.map_append]
    show c.relev + _ = _
    rw [List.map_singleton, sumRelev_concat (by simp), ← hb.relev]
    rfl

theorem TreeBuilt.single {env : TreeEnv} {t : StackTree} {opts : MatchOpts} {s : Step}
    (hp : TreePath t t.root [s.node]) {kg : KeyWithId} {g : MatchEntry}
    (ha : Level.FirstAnswer env.toEnv opts ⟨s.node, s.q, kg, g⟩) :
    TreeBuilt env t opts [⟨s.node, s.q, kg, g⟩]
      ⟨s.q.mask, (toEntry g s.q kg.id).entry.relev, [toEntry g s.q kg.id]⟩ := by
  refine ⟨hp, ?_, ?_, List.isChain_singleton _, ?_, rfl⟩
  · intro l hl
    rw [List.mem_singleton.1 hl]
    exact ha
  · exact List.Forall₂.cons (toEntry_madeFrom_id _ _ _) List.Forall₂.nil
  · show s.q.mask = s.q.mask ||| 0
    rw [Nat.or_zero]

theorem expandKey_built {env : TreeEnv} {t : StackTree} {opts : MatchOpts} {pms : List Subquery}
    (hr : RunOk env t opts pms) {cache : HMap ℕ (List MatchEntry)}
    (hc : CacheOk env opts pms cache) {above : List StackNode} {s : Step}
    (hs : StepFrom env t opts above s) {scale : ℕ}
    (hsc : scaleFactor env.chk s.q.store.zoom s.prevZoom = some scale) {kg : KeyWithId}
    (hkg : kg ∈ s.q.matchKeys) {cs : List Context}
    (h : expandKey env cache s scale kg = some cs) :
    ∀ c ∈ cs, ∃ ls l, TreeBuilt env t opts (ls ++ [l]) c ∧
      (ls ++ [l]).map Level.node = above ++ [s.node] ∧ l.q = s.q ∧ l.kg = kg := by
  unfold expandKey at h
  cases hf : HMap.find kg.id cache with
  | none =>
    rw [hf] at h
    cases h
    intro c hcc
    cases hcc
  | some grids =>
    rw [hf, Option.map_eq_some_iff] at h
    obtain ⟨es, hes, rfl⟩ := h
    intro c hcc
    obtain ⟨e, he, hce⟩ := List.mem_flatMap.1 hcc
    obtain ⟨g, hg, hge⟩ := mapM_mem hes e he
    rw [mkEntry_some hge] at hce
    have hq := (path_pms hr hs.path).1 s.node (by simp) s.q hs.pm
    obtain ⟨o, all, h1, h2, h3⟩ := cache_answers hr hc hq hkg hf
    have ha : Level.FirstAnswer env.toEnv opts ⟨s.node, s.q, kg, g⟩ :=
      let ⟨before, after, h4, h5, h6⟩ := h3 g hg
      ⟨hs.pm, hkg, o, before, after, h1, h4 ▸ h2, h5, h6⟩
    unfold newContexts at hce
    cases hp : s.prev with
    | none =>
      rw [hp] at hce
      rw [List.mem_singleton.1 hce, hs.first hp]
      refine ⟨[], ⟨s.node, s.q, kg, g⟩, ?_, rfl, rfl, rfl⟩
      have := hs.path
      rw [hs.first hp] at this
      exact TreeBuilt.single this ha
    | some prev =>
      rw [hp] at hce
      obtain ⟨c0, hc0, rfl⟩ := List.mem_map.1 hce
      obtain ⟨hmem, hxy⟩ := mem_parentsOf hc0
      obtain ⟨ls, l, hb, hnodes, hz⟩ := (hs.prev prev hp).2 c0 hmem
      refine ⟨ls ++ [l], ⟨s.node, s.q, kg, g⟩, hb.extend hr hs hnodes hz ha hsc hxy, ?_, rfl, rfl⟩
      rw [List.map_append, hnodes]
      rfl

theorem stateContexts_subset {step : Step} {groups : List (List Context)} {c : Context}
    (h : c ∈ stateContexts step groups) : ∃ g ∈ groups, c ∈ g := by
  unfold stateContexts at h
  split_ifs at h
  · exact List.mem_flatten.1 h
  · cases h

theorem nextSteps_ok {env : TreeEnv} {t : StackTree} {opts : MatchOpts} {above : List StackNode}
    {s : Step} (hs : StepFrom env t opts above s) {groups : List (List Context)}
    (hg : ∀ g ∈ groups, ∀ c ∈ g, ∃ ls l, TreeBuilt env t opts (ls ++ [l]) c ∧
      (ls ++ [l]).map Level.node = above ++ [s.node] ∧ l.q = s.q) {ss : List Step}
    (h : nextSteps env t opts s groups = some ss) :
    ∀ s' ∈ ss, StepFrom env t opts (above ++ [s.node]) s' := by
  unfold nextSteps at h
  intro s' hs'
  split_ifs at h with h0
  · rw [← Option.some.inj h] at hs'
    cases hs'
  · rw [Option.map_eq_some_iff] at h
    obtain ⟨os, hos, rfl⟩ := h
    obtain ⟨o, ho, rfl⟩ := List.mem_filterMap.1 hs'
    obtain ⟨c, hc, hcs⟩ := mapM_mem hos _ ho
    obtain ⟨h1, h2, h3, h4, h5, h6⟩ := nextStep_some hcs
    refine ⟨?_, h3, h6, ?_, ?_⟩
    · rw [treePath_append]
      refine ⟨hs.path, ?_⟩
      rw [List.getLast?_concat, Option.getD_some]
      exact ⟨⟨c, hc, h1⟩, trivial⟩
    · intro hn
      rw [h4] at hn
      cases hn
    · intro prev hp
      rw [h4] at hp
      rw [← Option.some.inj hp]
      refine ⟨by simp, ?_⟩
      intro c' hc'
      obtain ⟨g, hgm, hcg⟩ := stateContexts_subset hc'
      obtain ⟨ls, l, hb, hn, hq⟩ := hg g hgm c' hcg
      exact ⟨ls, l, hb, hn, by rw [hq, h5]⟩

theorem penalized_concat {ls : List Level} {u l : Level} :
    Penalized (ls ++ [u, l]) ↔ u.q.mask < l.q.mask := by
  unfold Penalized
  constructor
  · rintro (⟨l', h, _⟩ | ⟨ab, u', l', h, hlt⟩)
    · have := congrArg List.length h
      simp at this
    · have h1 := List.append_inj_right' h rfl
      simp only [List.cons.injEq, and_true] at h1
      rw [h1.1, h1.2]
      exact hlt
  · intro h
    exact Or.inr ⟨ls, u, l, rfl, h⟩

theorem not_alone_of_two {ls : List Level} {u l : Level} : ¬ Alone (ls ++ [u, l]) := by
  rintro ⟨l', h, _⟩
  have := congrArg List.length h
  simp at this

theorem penalize_fields {ls : List Level} {l : Level} {c : Context}
    (hentries : List.Forall₂ (fun l e => MadeFrom l.q l.grid e ∧ e.phrasematchId = l.kg.id)
      (ls ++ [l]).reverse c.entries) (hn : ls = [] → l.node.children ≠ []) :
    c.penalize.entries = c.entries ∧ c.penalize.mask = c.mask ∧ ¬ Alone (ls ++ [l]) ∧
      (Penalized (ls ++ [l]) → c.penalize.relev = c.relev - lit 0.01) ∧
      (¬ Penalized (ls ++ [l]) → c.penalize.relev = c.relev) := by
  have hent : c.penalize.entries = c.entries := by
    unfold Context.penalize
    split <;> (try split_ifs) <;> rfl
  have hmask : c.penalize.mask = c.mask := by
    unfold Context.penalize
    split <;> (try split_ifs) <;> rfl
  have halone : ¬ Alone (ls ++ [l]) := by
    rintro ⟨l', h1, h2⟩
    cases ls with
    | nil =>
      simp only [List.nil_append, List.cons.injEq, and_true] at h1
      exact hn rfl (h1 ▸ h2)
    | cons a b =>
      have := congrArg List.length h1
      simp at this
  refine ⟨hent, hmask, halone, ?_⟩
  rcases List.eq_nil_or_concat ls with rfl | ⟨ls', u, rfl⟩
  · have hp : Penalized ([] ++ [l]) := Or.inl ⟨l, rfl, hn rfl⟩
    refine ⟨fun _ => ?_, fun hnp => absurd hp hnp⟩
    have he := hentries
    rw [List.nil_append, List.reverse_singleton] at he
    unfold Context.penalize
    split
    · rename_i e0 e1 r heq
      rw [heq] at he
      cases he with
      | cons _ h2 => cases h2
    · rfl
  · have he := hentries
    simp only [List.concat_eq_append, List.append_assoc, List.singleton_append] at he ⊢
    rw [penalized_concat]
    rw [List.reverse_append] at he
    simp only [List.reverse_cons, List.reverse_nil, List.nil_append,
      List.cons_append] at he
    unfold Context.penalize
    cases hc : c.entries with
    | nil => rw [hc] at he; cases he
    | cons e0 r0 =>
      cases r0 with
      | nil =>
        rw [hc] at he
        cases he with
        | cons _ h2 => cases h2
      | cons e1 r1 =>
        rw [hc] at he
        cases he with
        | cons g1 h2 =>
          cases h2 with
          | cons g2 h3 =>
            have m0 : e0.mask = l.q.mask := g1.1.2.2.2.2.2.2.2.2.2.2.2
            have m1 : e1.mask = u.q.mask := g2.1.2.2.2.2.2.2.2.2.2.2.2
            simp only [m0, m1]
            constructor
            · intro hlt
              rw [if_pos hlt]
            · intro hlt
              rw [if_neg hlt]

theorem TreeBuilt.penalize {env : TreeEnv} {t : StackTree} {opts : MatchOpts} {ls : List Level}
    {l : Level} {c : Context} (h : TreeBuilt env t opts (ls ++ [l]) c)
    (hn : ls = [] → l.node.children ≠ []) :
    StackedFrom env.toEnv t opts (ls ++ [l]) c.penalize := by
  obtain ⟨hent, hmask, halone, hrel⟩ := penalize_fields h.entries hn
  refine ⟨by simp, h.path, ?_, by rw [hent]; exact h.entries, h.tiles, by rw [hmask]; exact h.mask,
    ?_, ?_, fun _ => h.answers⟩
  · intro l' hl' limit _ hlim
    rw [hlim halone]
    exact (h.answers l' hl').answers
  · intro hp
    rw [hrel.2 hp]
    exact h.relev
  · intro hp
    rw [hrel.1 hp, h.relev]

/-! ## Phase 1 -/

theorem treeSingle_made {env : Env} {q : Subquery} {opts : MatchOpts} {grids : List MatchEntry}
    {pid : ℕ} {cs : List Context} (h : treeSingle env q opts grids pid = some cs) :
    ∀ c ∈ cs, ∃ g ∈ grids, c = singleContext (toEntry g q pid) := by
  unfold treeSingle at h
  simp only [Option.bind_eq_bind, Option.bind_eq_some_iff] at h
  obtain ⟨st, hst, h⟩ := h
  cases h
  have hcol : Collected (fun e => ∃ g ∈ grids, e = toEntry g q pid) st.coalesced := by
    refine singleLoop_induct (P := fun s => Collected (fun e => ∃ g ∈ grids, e = toEntry g q pid)
      s.coalesced) ?_ ⟨HMap.wf_nil, by simp [SingleState.init], by simp [SingleState.init]⟩ hst
    intro s g e hs hg he
    exact hs.record ⟨g, hg, mkEntry_some he⟩
  intro c hc
  unfold singleById at hc
  obtain ⟨p, hp, rfl⟩ := List.mem_map.1 hc
  obtain ⟨g, hg, he⟩ := hcol.made p ((List.perm_insertionSort _ _).mem_iff.1 hp)
  exact ⟨g, hg, by rw [he]⟩

theorem single_stacked {env : TreeEnv} {t : StackTree} {opts : MatchOpts} {node : StackNode}
    {q : Subquery} (hp : TreePath t t.root [node]) (hch : node.children = []) {kg : KeyWithId}
    {g : MatchEntry} (ha : Level.Answers env.toEnv opts 80 ⟨node, q, kg, g⟩) :
    StackedFrom env.toEnv t opts [⟨node, q, kg, g⟩] (singleContext (toEntry g q kg.id)) := by
  have hnp : ¬ Penalized [(⟨node, q, kg, g⟩ : Level)] := by
    rintro (⟨l, h1, h2⟩ | ⟨ab, u, l, h1, _⟩)
    · simp only [List.cons.injEq, and_true] at h1
      rw [← h1] at h2
      exact h2 hch
    · have := congrArg List.length h1
      simp at this
  have hal : Alone [(⟨node, q, kg, g⟩ : Level)] := ⟨_, rfl, hch⟩
  refine ⟨by simp, hp, ?_, ?_, List.isChain_singleton _, ?_, fun _ => rfl, fun h => absurd h hnp,
    fun h => absurd hal h⟩
  · intro l hl limit hlim _
    rw [List.mem_singleton.1 hl, hlim hal]
    exact ha
  · exact List.Forall₂.cons (toEntry_madeFrom_id _ _ _) List.Forall₂.nil
  · show q.mask = q.mask ||| 0
    rw [Nat.or_zero]

/-- What a result of phase 1 is. -/
def FetchedOk (env : TreeEnv) (t : StackTree) (opts : MatchOpts) (pms : List Subquery) :
    Fetched → Prop
  | .single cs => ∀ c ∈ cs, ∃ ls, StackedFrom env.toEnv t opts ls c
  | .multi id data => ∃ q ∈ pms, ∃ kg ∈ q.matchKeys, kg.id = id ∧
      ∃ o grids, lookupOpts env.toEnv opts q kg = some o ∧
        env.query q.store kg.key o 100000 = some grids ∧ ∀ g ∈ data, FirstGrid grids g

theorem fetchKey_ok {env : TreeEnv} {t : StackTree} {opts : MatchOpts} {pms : List Subquery}
    (hr : RunOk env t opts pms) {s : Step} (hs : StepOk env t opts s) {k : FetchKey}
    (hk : KeyOf env.chk s k) {r : Fetched} (h : fetchKey env k = some r) :
    FetchedOk env t opts pms r := by
  obtain ⟨above, hs⟩ := hs
  have hlook : lookupOpts env.toEnv opts k.q k.kg = some k.opts := by
    rw [hk.q]
    exact keyOpts_lookup (env := env.toEnv) hs.opts_eq hk.opts
  have hkg : k.kg ∈ k.q.matchKeys := by rw [hk.q]; exact hk.kg
  have hq := (path_pms hr hs.path).1 s.node (by simp) s.q hs.pm
  unfold fetchKey at h
  by_cases hsing : k.single = true
  · rw [if_pos hsing] at h
    simp only [Option.bind_eq_bind, Option.bind_eq_some_iff] at h
    obtain ⟨grids, hgr, cs, hcs, h⟩ := h
    cases h
    have hsi : s.isSingle = true := hk.single ▸ hsing
    unfold Step.isSingle at hsi
    simp only [Bool.and_eq_true, Option.isNone_iff_eq_none, beq_iff_eq] at hsi
    have hpath := hs.path
    rw [hs.first hsi.1, List.nil_append] at hpath
    intro c hc
    rcases mem_cpqPushAll _ hc with hc | hc
    · obtain ⟨g, hg, rfl⟩ := treeSingle_made hcs c hc
      refine ⟨_, single_stacked hpath (List.length_eq_zero_iff.1 hsi.2) ?_⟩
      exact ⟨by rw [hk.q]; exact hs.pm, hkg, k.opts, grids, hlook, hgr, hg⟩
    · cases hc
  · rw [if_neg hsing] at h
    simp only [Option.bind_eq_bind, Option.bind_eq_some_iff] at h
    obtain ⟨grids, hgr, h⟩ := h
    cases h
    refine ⟨k.q, by rw [hk.q]; exact hq, k.kg, hkg, rfl, k.opts, grids, hlook, hgr, ?_⟩
    intro g hg
    exact firstGrid_of_keepFirst hg

theorem absorb_ok {env : TreeEnv} {t : StackTree} {opts : MatchOpts} {pms : List Subquery}
    {results : List Fetched} (hres : ∀ r ∈ results, FetchedOk env t opts pms r)
    {s : List Context × HMap ℕ (List MatchEntry)}
    (h1 : ∀ c ∈ s.1, ∃ ls, StackedFrom env.toEnv t opts ls c) (h2 : CacheOk env opts pms s.2) :
    (∀ c ∈ (results.foldl (absorbFetched env) s).1, ∃ ls, StackedFrom env.toEnv t opts ls c) ∧
      CacheOk env opts pms (results.foldl (absorbFetched env) s).2 := by
  induction results generalizing s with
  | nil => exact ⟨h1, h2⟩
  | cons r rs ih =>
    rw [List.foldl_cons]
    refine ih (fun r' hr' => hres r' (List.mem_cons_of_mem _ hr')) ?_ ?_
    · have := hres r (by simp)
      cases r with
      | single cs =>
        intro c hc
        rcases mem_cpqPushAll _ hc with hc | hc
        · exact this c hc
        · exact h1 c hc
      | multi id data => exact h1
    · have := hres r (by simp)
      cases r with
      | single cs => exact h2
      | multi id data =>
        refine fun p hp => HMap.forall_upsert (P := fun id (data : List MatchEntry) =>
          ∃ q ∈ pms, ∃ kg ∈ q.matchKeys, kg.id = id ∧
            ∃ o grids, lookupOpts env.toEnv opts q kg = some o ∧
              env.query q.store kg.key o 100000 = some grids ∧ ∀ g ∈ data, FirstGrid grids g)
          h2 this (fun _ _ => this) p hp

/-! ## The loop -/

/-- The invariant of the loop. -/
structure GenuineInv (env : TreeEnv) (t : StackTree) (opts : MatchOpts) (pms : List Subquery)
    (s : TreeState) : Prop where
  contexts : ∀ c ∈ s.contexts, ∃ ls, StackedFrom env.toEnv t opts ls c
  steps : ∀ st ∈ s.steps, StepOk env t opts st
  cache : CacheOk env opts pms s.cache

theorem GenuineInv.round {env : TreeEnv} {t : StackTree} {opts : MatchOpts} {pms : List Subquery}
    (hr : RunOk env t opts pms) {s s' : TreeState} (hi : GenuineInv env t opts pms s)
    {taken : List Step} {keys : List FetchKey} {results : List Fetched}
    {expanded : List (List Context × List Step)}
    (h : Round env t opts s s' taken keys results expanded) : GenuineInv env t opts pms s' := by
  have htaken : ∀ st ∈ taken, StepOk env t opts st := fun st hst =>
    hi.steps st (h.steps.mem_iff.2 (by simp [hst]))
  have hleft : ∀ st ∈ s'.left, StepOk env t opts st := fun st hst =>
    hi.steps st (h.steps.mem_iff.2 (by simp [hst]))
  have hres : ∀ r ∈ results, FetchedOk env t opts pms r := by
    intro r hrr
    obtain ⟨k, hk, hkr⟩ := mapM_mem h.got r hrr
    obtain ⟨st, hst, hks⟩ := h.of_keys k hk
    exact fetchKey_ok hr (htaken st hst) hks hkr
  obtain ⟨hc1, hc2⟩ := absorb_ok (s := (s.contexts, s.cache)) hres hi.contexts hi.cache
  have hcache : CacheOk env opts pms s'.cache := by rw [h.cache]; exact hc2
  have hexp : ∀ r ∈ expanded, (∀ c ∈ r.1, ∃ ls, StackedFrom env.toEnv t opts ls c) ∧
      ∀ st ∈ r.2, StepOk env t opts st := by
    intro r hrr
    obtain ⟨st, hst, hre⟩ := mapM_mem h.grown r hrr
    rw [List.mem_filter] at hst
    obtain ⟨above, hfrom⟩ := htaken st hst.1
    obtain ⟨scale, groups, e1, e2, e3, e4⟩ := expandStep_some hre
    have hgroups : ∀ g ∈ groups, ∀ c ∈ g, ∃ ls l, TreeBuilt env t opts (ls ++ [l]) c ∧
        (ls ++ [l]).map Level.node = above ++ [st.node] ∧ l.q = st.q := by
      intro g hg
      obtain ⟨kg, hkg, hge⟩ := mapM_mem e2 g hg
      intro c hc
      obtain ⟨ls, l, h1, h2, h3, _⟩ := expandKey_built hr hcache hfrom e1 hkg hge c hc
      exact ⟨ls, l, h1, h2, h3⟩
    refine ⟨?_, ?_⟩
    · intro c hc
      rw [e4] at hc
      obtain ⟨g, hg, hc⟩ := List.mem_flatMap.1 hc
      rcases mem_cpqPushAll _ hc with hc | hc
      · obtain ⟨c0, hc0, rfl⟩ := List.mem_map.1 hc
        obtain ⟨ls, l, hb, hn, hq⟩ := hgroups g hg c0 hc0
        refine ⟨_, hb.penalize ?_⟩
        intro hls
        subst hls
        have hlen := congrArg List.length hn
        simp only [List.nil_append, List.map_cons, List.map_nil, List.length_append,
          List.length_cons, List.length_nil] at hlen
        have hab : above = [] := List.length_eq_zero_iff.1 (by omega)
        rw [hab] at hn
        simp only [List.nil_append, List.map_cons, List.map_nil, List.cons.injEq, and_true] at hn
        have hsi := hst.2
        unfold Step.isSingle at hsi
        have hpn : st.prev = none := by
          cases hp : st.prev with
          | none => rfl
          | some prev => exact absurd hab (hfrom.prev prev hp).1
        rw [hpn] at hsi
        rw [hn]
        intro hcn
        rw [hcn] at hsi
        simp at hsi
      · cases hc
    · intro s1 hs1
      exact ⟨_, nextSteps_ok hfrom hgroups e3 s1 hs1⟩
  refine ⟨?_, ?_, hcache⟩
  · intro c hc
    rw [h.contexts] at hc
    rcases mem_cpqPushAll _ hc with hc | hc
    · obtain ⟨r, hrr, hc⟩ := List.mem_flatMap.1 hc
      exact (hexp r hrr).1 c hc
    · exact hc1 c hc
  · intro st hst
    rcases List.mem_append.1 (h.next.mem_iff.1 hst) with hst | hst
    · obtain ⟨r, hrr, hst⟩ := List.mem_flatMap.1 hst
      exact (hexp r hrr).2 st hst
    · exact hleft st hst

theorem treeInit_genuine {env : TreeEnv} {t : StackTree} {opts : MatchOpts} {pms : List Subquery}
    {s : TreeState} (h : treeInit env t opts = some s) : GenuineInv env t opts pms s := by
  obtain ⟨ss, hss, hp, h1, h2, _⟩ := treeInit_some h
  refine ⟨by rw [h1]; simp, ?_, by rw [h2]; intro p hp; cases hp⟩
  intro st hst
  obtain ⟨f1, f2, f3, f4, f5, f6⟩ := (firstSteps_some hss).2 st (hp.mem_iff.1 hst)
  refine ⟨[], ⟨⟨st.ix, f2, f1⟩, trivial⟩, f3, f6, fun _ => rfl, ?_⟩
  intro prev hpr
  rw [f4] at hpr
  cases hpr

end Carmen
