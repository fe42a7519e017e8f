import Verif.Lemmas.TreeServed
import Verif.Lemmas.StepPossible
import Verif.Lemmas.Outdone
import Verif.Lemmas.TreeGenuine
import Verif.Props.Queue
import Verif.Spec.Boxes

/-!
# Why `tree_coalesce` misses nothing when there is room
-/

namespace Carmen
open Spec

/-! ## The cache -/

theorem mapM_mem_left {α β : Type} {f : α → Option β} {l : List α} {l' : List β}
    (h : l.mapM f = some l') : ∀ a ∈ l, ∃ b ∈ l', f a = some b := by
  induction l generalizing l' with
  | nil => intro a ha; cases ha
  | cons x t ih =>
    rw [List.mapM_cons] at h
    simp only [Option.bind_eq_bind, Option.bind_eq_some_iff] at h
    obtain ⟨b, hb, bs, hbs, h⟩ := h
    cases h
    intro a ha
    rcases List.mem_cons.1 ha with rfl | ha
    · exact ⟨b, by simp, hb⟩
    · obtain ⟨b', hb', h⟩ := ih hbs a ha
      exact ⟨b', List.mem_cons_of_mem _ hb', h⟩

/-- What is counted is covered by what was visited. -/
def ServeInv (env : TreeEnv) (t : StackTree) (s : TreeState) : Prop :=
  s.counts.Le (sumCounts (s.visited.map (chargeAt env.chk t)))

theorem round_served {env : TreeEnv} {t : StackTree} {opts : MatchOpts} {pms : List Subquery}
    (ht : ((t.arena.nodes.map Prod.fst).flatMap StackNode.children ++ t.root.children).Nodup)
    {s s' : TreeState} (ho : OnceInv t s)
    (hg : GenuineInv env t opts pms s) (hi : ServeInv env t s)
    {taken : List Step} {keys : List FetchKey} {results : List Fetched}
    {expanded : List (List Context × List Step)}
    (h : Round env t opts s s' taken keys results expanded) :
    ServeInv env t s' ∧ (∀ st ∈ taken, st.isSingle = false → ∀ kg ∈ st.q.matchKeys,
      RoomToTryFor (scansOf t) (st.q, kg) →
      Served s.cache keys kg.id ∨ Skipped env s.contexts st kg) ∧
      ∀ st ∈ taken, st.isSingle = true → ∀ kg ∈ st.q.matchKeys,
        RoomToTryFor (scansOf t) (st.q, kg) →
        KeyQueued keys kg.id ∨ Skipped env s.contexts st kg := by
  obtain ⟨f, hf, hk, hc, hch, hv⟩ := h.fill
  have hsub : (s.visited ++ s.steps.map (·.ix)).Subperm (List.range t.arena.nodes.length) := by
    refine (ho.all_nodup ht).subperm ?_
    intro i hii
    rw [List.mem_range]
    rcases List.mem_append.1 hii with hii | hii
    · exact ho.bound i hii
    · obtain ⟨st, hst, rfl⟩ := List.mem_map.1 hii
      exact (ho.at_ st hst).lt
  have hsteps : ∀ st ∈ s.steps, StepAt t st ∧ st.node.pm = some st.q := by
    intro st hst
    obtain ⟨above, hfrom⟩ := hg.steps st hst
    exact ⟨ho.at_ st hst, hfrom.pm⟩
  have hserve : Serving env t s.cache s.contexts (sumCounts (s.visited.map (chargeAt env.chk t)))
      (treeCharge env.chk t) ⟨s.steps, s.counts, [], [], false, [], 0, [], none⟩ := by
    refine ⟨hsteps, ?_, ?_, ?_, ?_⟩
    · show s.counts.Le ((sumCounts (s.visited.map (chargeAt env.chk t))).plus ⟨0, 0, 0, 0, 0⟩)
      rw [Counts.plus_zero]
      exact hi
    · rw [List.nil_append, ← sumCounts_append, ← List.map_append]
      obtain ⟨l, hp, hs⟩ := hsub
      exact sumCounts_subperm ⟨_, hp.map _, hs.map _⟩
    · intro id b hid
      cases hid
    · intro st hst
      cases hst
  obtain ⟨h1, h2, taken', new, h3, _, h5⟩ := fillChunk_serving hserve hf
  refine ⟨?_, ?_, ?_⟩
  · unfold ServeInv
    rw [h.visited, List.map_append, sumCounts_append, ← hv, ← hc]
    exact h1
  · intro st hst hsi kg hkg hroom
    rw [← hk]
    exact h2 st (by rw [hch]; simp [hst, hsi]) kg hkg (hroom.fits env.chk)
  · intro st hst hsi kg hkg hroom
    rw [← hk]
    have hix : st.ix ∈ taken'.map (·.ix) := by
      have h3 : f.visited = taken'.map (·.ix) := by simpa using h3
      rw [← h3, hv]
      exact List.mem_map_of_mem hst
    obtain ⟨st', hst', hixe⟩ := List.mem_map.1 hix
    obtain ⟨hin, hq⟩ := h5 st' hst'
    have : st' = st := by
      refine List.inj_on_of_nodup_map (ho.all_nodup ht).of_append_right hin ?_ hixe
      exact h.steps.mem_iff.2 (by simp [hst])
    rw [this] at hq
    exact hq hsi kg hkg (hroom.fits env.chk)

/-- What the cache holds, exactly. -/
def CacheFull (env : TreeEnv) (opts : MatchOpts) (pms : List Subquery)
    (cache : HMap ℕ (List MatchEntry)) : Prop :=
  ∀ p ∈ cache, ∃ q ∈ pms, ∃ kg ∈ q.matchKeys, kg.id = p.1 ∧
    ∃ o grids, lookupOpts env.toEnv opts q kg = some o ∧
      env.query q.store kg.key o 100000 = some grids ∧
      p.2 = keepFirst (fun g => (g.entry.x, g.entry.y, g.entry.id)) [] (grids.take 100000)

theorem cacheFull_round {env : TreeEnv} {t : StackTree} {opts : MatchOpts} {pms : List Subquery}
    (hr : RunOk env t opts pms) {s s' : TreeState} (hg : GenuineInv env t opts pms s)
    (hi : CacheFull env opts pms s.cache)
    {taken : List Step} {keys : List FetchKey} {results : List Fetched}
    {expanded : List (List Context × List Step)}
    (h : Round env t opts s s' taken keys results expanded) : CacheFull env opts pms s'.cache := by
  have hres : ∀ r ∈ results, ∀ id data, r = .multi id data → ∃ q ∈ pms, ∃ kg ∈ q.matchKeys,
      kg.id = id ∧ ∃ o grids, lookupOpts env.toEnv opts q kg = some o ∧
        env.query q.store kg.key o 100000 = some grids ∧
        data = keepFirst (fun g => (g.entry.x, g.entry.y, g.entry.id)) [] (grids.take 100000) := by
    rintro r hrr id data rfl
    obtain ⟨k, hk, hkr⟩ := mapM_mem h.got _ hrr
    obtain ⟨st, hst, hks⟩ := h.of_keys k hk
    obtain ⟨above, hs⟩ := hg.steps st (h.steps.mem_iff.2 (by simp [hst]))
    unfold fetchKey at hkr
    by_cases hsing : k.single = true
    · rw [if_pos hsing] at hkr
      simp only [Option.bind_eq_bind, Option.bind_eq_some_iff] at hkr
      obtain ⟨_, _, _, _, hkr⟩ := hkr
      cases hkr
    · rw [if_neg hsing] at hkr
      simp only [Option.bind_eq_bind, Option.bind_eq_some_iff] at hkr
      obtain ⟨grids, hgr, hkr⟩ := hkr
      cases hkr
      refine ⟨k.q, ?_, k.kg, by rw [hks.q]; exact hks.kg, rfl, k.opts, grids, ?_, hgr, rfl⟩
      · rw [hks.q]
        exact (path_pms hr hs.path).1 st.node (by simp) st.q hs.pm
      · rw [hks.q]
        exact keyOpts_lookup (env := env.toEnv) hs.opts_eq hks.opts
  rw [h.cache]
  have : ∀ (rs : List Fetched) (p : List Context × HMap ℕ (List MatchEntry)),
      (∀ r ∈ rs, r ∈ results) → CacheFull env opts pms p.2 →
      CacheFull env opts pms (rs.foldl (absorbFetched env) p).2 := by
    intro rs
    induction rs with
    | nil => intro p _ hp; exact hp
    | cons r rs ih =>
      intro p hsub hp
      rw [List.foldl_cons]
      refine ih _ (fun r' hr' => hsub r' (List.mem_cons_of_mem _ hr')) ?_
      cases r with
      | single cs => exact hp
      | multi id data =>
        have := hres _ (hsub _ (by simp)) id data rfl
        refine fun p' hp' => HMap.forall_upsert (P := fun id (data : List MatchEntry) =>
          ∃ q ∈ pms, ∃ kg ∈ q.matchKeys, kg.id = id ∧
            ∃ o grids, lookupOpts env.toEnv opts q kg = some o ∧
              env.query q.store kg.key o 100000 = some grids ∧
              data = keepFirst (fun g => (g.entry.x, g.entry.y, g.entry.id)) []
                (grids.take 100000)) hp this (fun _ _ => this) p' hp'
  exact this results (s.contexts, s.cache) (fun _ h => h) hi

theorem absorb_keeps {env : TreeEnv} {id : ℕ} (rs : List Fetched)
    (p : List Context × HMap ℕ (List MatchEntry))
    (h : (HMap.find id p.2).isSome = true ∨ ∃ data, Fetched.multi id data ∈ rs) :
    (HMap.find id (rs.foldl (absorbFetched env) p).2).isSome = true := by
  induction rs generalizing p with
  | nil =>
    rcases h with h | ⟨_, h⟩
    · exact h
    · cases h
  | cons r rs ih =>
    rw [List.foldl_cons]
    refine ih _ ?_
    rcases h with h | ⟨data, h⟩
    · left
      cases r with
      | single cs => exact h
      | multi id' data =>
        show (HMap.find id (HMap.insert id' data p.2)).isSome = true
        unfold HMap.insert
        rw [HMap.find_upsert]
        split_ifs
        · rfl
        · exact h
    · rcases List.mem_cons.1 h with h | h
      · left
        subst h
        show (HMap.find id (HMap.insert id data p.2)).isSome = true
        unfold HMap.insert
        rw [HMap.find_upsert, if_pos rfl]
        rfl
      · exact Or.inr ⟨data, h⟩

theorem served_cached {env : TreeEnv} {t : StackTree} {opts : MatchOpts} {s s' : TreeState}
    {taken : List Step} {keys : List FetchKey} {results : List Fetched}
    {expanded : List (List Context × List Step)}
    (h : Round env t opts s s' taken keys results expanded) {id : ℕ}
    (hs : Served s.cache keys id) : (HMap.find id s'.cache).isSome = true := by
  rw [h.cache]
  refine absorb_keeps results (s.contexts, s.cache) ?_
  rcases hs with hs | ⟨k, hk, rfl, hsing⟩
  · exact Or.inl hs
  · right
    obtain ⟨r, hr, hkr⟩ := mapM_mem_left h.got k hk
    unfold fetchKey at hkr
    rw [hsing, if_neg (by simp)] at hkr
    simp only [Option.bind_eq_bind, Option.bind_eq_some_iff] at hkr
    obtain ⟨grids, _, hkr⟩ := hkr
    cases hkr
    exact ⟨_, hr⟩

theorem mem_keepFirst_first {α K : Type} [DecidableEq K] {key : α → K} {before after : List α}
    {a : α} (hb : ∀ b ∈ before, key b ≠ key a) {seen : List K} (hs : key a ∉ seen) :
    a ∈ keepFirst key seen (before ++ a :: after) := by
  induction before generalizing seen with
  | nil =>
    rw [List.nil_append]
    unfold keepFirst
    rw [if_neg hs]
    exact List.mem_cons_self
  | cons b t ih =>
    rw [List.cons_append]
    unfold keepFirst
    have ht : ∀ c ∈ t, key c ≠ key a := fun c hc => hb c (List.mem_cons_of_mem _ hc)
    split_ifs
    · exact ih ht hs
    · refine List.mem_cons_of_mem _ (ih ht ?_)
      rw [List.mem_cons, not_or]
      exact ⟨(hb b (by simp)).symm, hs⟩

/-- A first answer is among the grids in the cache. -/
theorem firstAnswer_cached {env : TreeEnv} {t : StackTree} {opts : MatchOpts} {pms : List Subquery}
    (hr : RunOk env t opts pms) {cache : HMap ℕ (List MatchEntry)}
    (hc : CacheFull env opts pms cache) {l : Level} (hl : l.FirstAnswer env.toEnv opts)
    (hq : l.q ∈ pms) {data : List MatchEntry} (hf : HMap.find l.kg.id cache = some data) :
    l.grid ∈ data := by
  obtain ⟨-, hk, o, before, after, h1, h2, h3, h4⟩ := hl
  obtain ⟨q', hq', kg', hk', hid, o', all, g1, g2, g3⟩ := hc _ (HMap.mem_of_find hf)
  obtain ⟨e1, e2, e3⟩ := hr.ids q' hq' l.q hq kg' hk' l.kg hk hid
  have hlook : lookupOpts env.toEnv opts q' kg' = lookupOpts env.toEnv opts l.q l.kg := by
    unfold lookupOpts
    rw [e1, e3]
  rw [hlook, h1] at g1
  cases g1
  rw [e1, e2, h2] at g2
  cases g2
  simp only at g3
  rw [g3, List.take_append, List.take_of_length_le (by omega)]
  have : 100000 - before.length = (100000 - before.length - 1) + 1 := by omega
  rw [this, List.take_succ_cons]
  refine mem_keepFirst_first ?_ (by simp)
  intro g hg he
  simp only [Prod.mk.injEq] at he
  exact h4 g hg he

/-! ## The context of a stack -/

/-- The entry of a level. -/
def Spec.Level.toEntry (l : Level) : CoalesceEntry := Carmen.toEntry l.grid l.q l.kg.id

/-- The context of a stack before the penalty; the lowest level comes first. -/
def stackCtx : List Level → Context
  | [] => ⟨0, 0, []⟩
  | [l] => ⟨l.q.mask, l.toEntry.entry.relev, [l.toEntry]⟩
  | l :: u :: rest => (stackCtx (u :: rest)).extend l.q l.toEntry

theorem stackCtx_entries (ls : List Level) : (stackCtx ls).entries = ls.map Level.toEntry := by
  induction ls with
  | nil => rfl
  | cons l rest ih =>
    cases rest with
    | nil => rfl
    | cons u rest =>
      show _ :: (stackCtx (u :: rest)).entries = _
      rw [ih]
      rfl

theorem stackCtx_first (l : Level) (rest : List Level) : (stackCtx (l :: rest)).first = l.toEntry := by
  unfold Context.first
  rw [stackCtx_entries]
  rfl

theorem stackCtx_relev {ls : List Level} (h : ls ≠ []) :
    (stackCtx ls.reverse).relev = sumRelev (ls.map Level.relev) := by
  have : ∀ (l : Level) (ls : List Level),
      (stackCtx (l :: ls)).relev = sumRelev ((l :: ls).reverse.map Level.relev) := by
    intro l ls
    induction ls generalizing l with
    | nil => rfl
    | cons u rest ih =>
      rw [List.reverse_cons, List.map_append, List.map_singleton, sumRelev_concat (by simp),
        ← ih]
      rfl
  obtain ⟨l, rest, he⟩ : ∃ l rest, ls.reverse = l :: rest := by
    cases hre : ls.reverse with
    | nil => exact absurd (List.reverse_eq_nil_iff.1 hre) h
    | cons l rest => exact ⟨l, rest, rfl⟩
  rw [he, this, ← he, List.reverse_reverse]

/-- Levels over these nodes, with first answers to scans that are `P`, each tile in the one before. -/
structure Over (P : Subquery × KeyWithId → Prop) (env : Env) (opts : MatchOpts)
    (ns : List StackNode) (ls : List Level) : Prop where
  nodes : ls.map Level.node = ns
  answers : ∀ l ∈ ls, l.FirstAnswer env opts
  scans : ∀ l ∈ ls, P (l.q, l.kg)
  tiles : ls.IsChain fun a b => TileContains a.tile b.tile

/-- For every node of the path below the first, some levels above it end in a tile that a bounding
box of its index meets. -/
def PathOpen (P : Subquery × KeyWithId → Prop) (env : Env) (opts : MatchOpts)
    (ns : List StackNode) : Prop :=
  ∀ above n below, ns = above ++ n :: below → above ≠ [] → ∀ q, n.pm = some q →
    ∃ up l, Over P env opts above (up ++ [l]) ∧ (l.q.store.zoom ≤ q.store.zoom →
      Meets q.store l.q.store.zoom l.grid.entry.x l.grid.entry.y)

/-- The scan has room. -/
abbrev HasRoom (t : StackTree) : Subquery × KeyWithId → Prop := RoomToTryFor (scansOf t)

/-- Levels that stack up along a path that is open. -/
structure Climbs (env : Env) (t : StackTree) (opts : MatchOpts) (ls : List Level) : Prop where
  ne : ls ≠ []
  notAlone : ¬ Alone ls
  path : TreePath t t.root (ls.map Level.node)
  answers : ∀ l ∈ ls, l.FirstAnswer env opts
  tiles : ls.IsChain fun a b => TileContains a.tile b.tile
  opened : PathOpen (HasRoom t) env opts (ls.map Level.node)

theorem stackCtx_built {env : TreeEnv} {t : StackTree} {opts : MatchOpts} {ls : List Level}
    (h : Climbs env.toEnv t opts ls) : TreeBuilt env t opts ls (stackCtx ls.reverse) := by
  refine ⟨h.path, h.answers, ?_, h.tiles, ?_, ?_⟩
  · rw [stackCtx_entries, List.forall₂_map_right_iff]
    refine List.forall₂_same.2 ?_
    intro l _
    exact toEntry_madeFrom_id _ _ _
  · have : ∀ ls : List Level, (stackCtx ls).mask = unionMask (ls.reverse.map (·.q.mask)) := by
      intro ls
      induction ls with
      | nil => rfl
      | cons l rest ih =>
        cases rest with
        | nil => show l.q.mask = l.q.mask ||| 0; rw [Nat.or_zero]
        | cons u rest =>
          rw [List.reverse_cons, List.map_append, List.map_singleton, unionMask_append, ← ih]
          rfl
    rw [this, List.reverse_reverse]
  · exact stackCtx_relev h.ne

/-! ## Growing a stack -/

/-- The step a stack waits for: its upper part `pre` is among the contexts of the step for `l`. -/
structure Waiting (env : TreeEnv) (t : StackTree) (opts : MatchOpts) (pre : List Level) (l : Level)
    (st : Step) : Prop where
  src : StepFrom env t opts (pre.map Level.node) st
  node : st.node = l.node
  q : st.q = l.q
  first : pre = [] → st.prev = none
  prev : ∀ u up, pre = up ++ [u] → (∀ q, u.node.pm = some q → st.prevZoom = q.store.zoom) ∧
    ∃ prev, st.prev = some prev ∧ ∀ up,
      Over (HasRoom t) env.toEnv opts (pre.map Level.node) up → stackCtx up.reverse ∈ prev

theorem level_zooms {env : TreeEnv} {t : StackTree} {opts : MatchOpts} {pms : List Subquery}
    (hr : RunOk env t opts pms) {up rest : List Level} {u l : Level}
    (hp : TreePath t t.root ((up ++ u :: l :: rest).map Level.node))
    (hu : u.node.pm = some u.q) (hl : l.node.pm = some l.q) :
    env.chk = true ∨ (u.q.store.zoom ≤ l.q.store.zoom ∧ l.q.store.zoom < u.q.store.zoom + 16) := by
  rcases hr.zooms with h | h
  · exact Or.inl h
  · right
    obtain ⟨h1, _, h3⟩ := path_pms hr hp
    have hm : ∀ a ∈ up ++ u :: l :: rest, a.node ∈ (up ++ u :: l :: rest).map Level.node :=
      fun a ha => List.mem_map_of_mem ha
    have huq := h1 u.node (hm u (by simp)) u.q hu
    have hlq := h1 l.node (hm l (by simp)) l.q hl
    rw [List.isChain_map] at h3
    have h4 := (List.isChain_append.1 h3).2.1
    rw [List.isChain_cons_cons] at h4
    exact h u.q huq l.q hlq (h4.1 u.q l.q hu hl)

theorem mem_parentsOf_of_mem {bush : Bush} {prev : List Context} {p : ℕ × ℕ} {c : Context}
    (h : c ∈ prev) (hp : (c.first.entry.x, c.first.entry.y) = p) : c ∈ parentsOf bush prev p := by
  obtain ⟨i, hi⟩ := List.mem_iff_getElem?.1 h
  unfold parentsOf
  refine List.mem_filterMap.2 ⟨i, ?_, hi⟩
  refine (bush.exact_perm (points prev) p).mem_iff.2 ?_
  have hlt : i < prev.length := (List.getElem?_eq_some_iff.1 hi).1
  rw [List.mem_filter, List.mem_range]
  unfold points
  refine ⟨by rw [List.length_map]; exact hlt, ?_⟩
  rw [List.getElem?_map, hi, Option.map_some, hp, decide_eq_true_eq]

theorem waiting_expands {env : TreeEnv} {t : StackTree} {opts : MatchOpts} {pms : List Subquery}
    (hr : RunOk env t opts pms) {pre : List Level} {l : Level} {st : Step}
    (hw : Waiting env t opts pre l st) {up : List Level} {k : Level}
    (ho : Over (HasRoom t) env.toEnv opts (pre.map Level.node ++ [l.node]) (up ++ [k]))
    {cache : HMap ℕ (List MatchEntry)}
    (hc : CacheFull env opts pms cache) (hf : (HMap.find k.kg.id cache).isSome = true) {scale : ℕ}
    (hsc : scaleFactor env.chk st.q.store.zoom st.prevZoom = some scale) {cs : List Context}
    (h : expandKey env cache st scale k.kg = some cs) : stackCtx (k :: up.reverse) ∈ cs := by
  have hnodes := ho.nodes
  rw [List.map_append, List.map_singleton] at hnodes
  obtain ⟨hup, hkn⟩ := List.append_inj' hnodes rfl
  have hkn : k.node = l.node := List.singleton_inj.1 hkn
  have hkm : k.node.pm = some k.q := (ho.answers k (by simp)).1
  have hkq : st.q = k.q := by
    have := hw.src.pm
    rw [hw.node, ← hkn, hkm] at this
    exact (Option.some.inj this).symm
  have hpath : TreePath t t.root ((up ++ [k]).map Level.node) := by
    rw [ho.nodes, ← hw.node]
    exact hw.src.path
  obtain ⟨data, hd⟩ := Option.isSome_iff_exists.1 hf
  unfold expandKey at h
  rw [hd, Option.map_eq_some_iff] at h
  obtain ⟨es, hes, rfl⟩ := h
  have hl := ho.answers k (by simp)
  have hq : k.q ∈ pms := (path_pms hr hpath).1 k.node (List.mem_map_of_mem (by simp)) k.q hl.1
  obtain ⟨e, he, hge⟩ := mapM_mem_left hes k.grid (firstAnswer_cached hr hc hl hq hd)
  have he' : e = k.toEntry := by
    rw [mkEntry_some hge, hkq]
    rfl
  refine List.mem_flatMap.2 ⟨e, he, ?_⟩
  rw [he']
  unfold newContexts
  rcases List.eq_nil_or_concat pre with rfl | ⟨pup, pu, rfl⟩
  · have : up = [] := List.map_eq_nil_iff.1 hup
    subst this
    rw [hw.first rfl, hkq]
    exact List.mem_singleton_self _
  · rw [List.concat_eq_append] at hw hup
    obtain ⟨hz, prev, hp, hmem⟩ := hw.prev pu pup rfl
    rw [hp]
    have hov : Over (HasRoom t) env.toEnv opts ((pup ++ [pu]).map Level.node) up :=
      ⟨hup, fun a ha => ho.answers a (by simp [ha]), fun a ha => ho.scans a (by simp [ha]),
        (List.isChain_append.1 ho.tiles).1⟩
    have hin := hmem up hov
    rcases List.eq_nil_or_concat up with rfl | ⟨up, u, rfl⟩
    · simp at hup
    · rw [List.concat_eq_append] at *
      rw [List.map_append, List.map_append] at hup
      have hun : u.node = pu.node := List.singleton_inj.1 (List.append_inj' hup rfl).2
      have hum := (ho.answers u (by simp)).1
      have huz : st.prevZoom = u.q.store.zoom := hz u.q (by rw [← hun]; exact hum)
      rw [List.reverse_append, List.reverse_singleton, List.singleton_append] at hin ⊢
      refine List.mem_map.2 ⟨stackCtx (u :: up.reverse), mem_parentsOf_of_mem hin ?_, ?_⟩
      · rw [List.append_assoc, List.singleton_append] at hpath
        have hzoom := level_zooms hr hpath hum hkm
        rw [hkq, huz] at hsc
        obtain ⟨_, hscale⟩ := scale_some hsc hzoom
        have ht := ho.tiles
        rw [List.concat_eq_append, List.append_assoc, List.singleton_append] at ht
        have ht := (List.isChain_append.1 ht).2.1
        rw [List.isChain_cons_cons] at ht
        obtain ⟨_, hx, hy⟩ := ht.1
        rw [stackCtx_first, hscale]
        exact Prod.ext hx hy
      · rw [hkq]
        rfl

/-- The bounding boxes of a child are rounded outwards to whole tiles. -/
theorem childBoxes_eq {chk : Bool} {child : Store} {zoom : ℕ} {boxes : List BBox}
    (h : childBoxes chk child zoom = some boxes) (hz : zoom ≤ child.zoom)
    (hz16 : chk = true ∨ child.zoom < zoom + 16) :
    boxes = child.bboxes.map fun b => ⟨b.minX / 2 ^ (child.zoom - zoom),
      b.minY / 2 ^ (child.zoom - zoom), b.maxX / 2 ^ (child.zoom - zoom),
      b.maxY / 2 ^ (child.zoom - zoom)⟩ := by
  unfold childBoxes at h
  by_cases he : child.zoom = zoom
  · rw [if_pos he] at h
    cases h
    rw [he, Nat.sub_self]
    simp
  · rw [if_neg he] at h
    have hlt : zoom < child.zoom := by omega
    cases hc : chk with
    | true =>
      rw [hc, if_pos rfl] at h
      by_cases hn : child.zoom - zoom < 16
      · have : ∀ b ∈ child.bboxes, adjustBBoxZoomChecked b child.zoom zoom =
            some ((fun b : BBox => (⟨b.minX / 2 ^ (child.zoom - zoom),
              b.minY / 2 ^ (child.zoom - zoom), b.maxX / 2 ^ (child.zoom - zoom),
              b.maxY / 2 ^ (child.zoom - zoom)⟩ : BBox)) b) := by
          intro b _
          unfold adjustBBoxZoomChecked chkShift
          rw [if_pos hlt, if_pos hn]
          simp only [Option.bind_eq_bind, Option.bind_some, Nat.shiftRight_eq_div_pow]
        rw [mapM_eq_some this] at h
        exact (Option.some.inj h).symm
      · cases hb : child.bboxes with
        | nil =>
          rw [hb] at h
          cases h
          rfl
        | cons b bs =>
          rw [hb] at h
          obtain ⟨b', _, hbb⟩ := mapM_mem_left h b (by simp)
          unfold adjustBBoxZoomChecked chkShift at hbb
          rw [if_pos hlt, if_neg hn] at hbb
          cases hbb
    | false =>
      rw [hc] at h hz16
      rw [if_neg (by simp)] at h
      cases h
      have hz16 : child.zoom < zoom + 16 := by simpa using hz16
      refine List.map_congr_left fun b _ => ?_
      unfold adjustBBoxZoom
      rw [if_pos hlt]
      simp only [shr16_eq (show child.zoom - zoom < 16 by omega)]

theorem anyInside_iff {chk : Bool} {child : Store} {zoom : ℕ} {boxes : List BBox}
    (h : childBoxes chk child zoom = some boxes) (hz : zoom ≤ child.zoom)
    (hz16 : chk = true ∨ child.zoom < zoom + 16) {cs : List Context} :
    boxes.any (anyInside (points cs)) = true ↔
      ∃ c ∈ cs, Meets child zoom c.first.entry.x c.first.entry.y := by
  rw [childBoxes_eq h hz hz16, List.any_eq_true]
  unfold anyInside points Meets
  constructor
  · rintro ⟨b', hb', h⟩
    obtain ⟨b, hb, rfl⟩ := List.mem_map.1 hb'
    obtain ⟨p, hp, h⟩ := List.any_eq_true.1 h
    obtain ⟨c, hc, rfl⟩ := List.mem_map.1 hp
    exact ⟨c, hc, b, hb, of_decide_eq_true h⟩
  · rintro ⟨c, hc, b, hb, h⟩
    refine ⟨_, List.mem_map_of_mem hb, List.any_eq_true.2 ⟨_, List.mem_map_of_mem hc, ?_⟩⟩
    exact decide_eq_true h

/-- The next level of a stack gets a step. -/
theorem waiting_next {env : TreeEnv} {t : StackTree} {opts : MatchOpts} {pms : List Subquery}
    (hr : RunOk env t opts pms) {pre post : List Level} {l l' : Level}
    (hs : Climbs env.toEnv t opts (pre ++ l :: l' :: post)) {st : Step}
    (hw : Waiting env t opts pre l st) {groups : List (List Context)}
    (hmem : ∀ up, Over (HasRoom t) env.toEnv opts (pre.map Level.node ++ [l.node]) up →
      stackCtx up.reverse ∈ groups.flatten)
    (hok : ∀ g ∈ groups, ∀ c ∈ g, ∃ ls k, TreeBuilt env t opts (ls ++ [k]) c ∧
      (ls ++ [k]).map Level.node = pre.map Level.node ++ [st.node] ∧ k.q = st.q)
    {ss : List Step} (h : nextSteps env t opts st groups = some ss) :
    ∃ st' ∈ ss, Waiting env t opts (pre ++ [l]) l' st' := by
  have hpath := hs.path
  rw [List.map_append, List.map_cons, List.map_cons, treePath_append] at hpath
  obtain ⟨c, hc, hget⟩ := hpath.2.2.1
  have hleaf : st.node.isLeaf = false := by
    unfold StackNode.isLeaf
    rw [hw.node]
    cases hch : l.node.children with
    | nil => rw [hch] at hc; cases hc
    | cons a b => rfl
  have hstate : stateContexts st groups = groups.flatten := by
    unfold stateContexts
    rw [hleaf]
    simp
  have hl := hs.answers l (by simp)
  have hl' := hs.answers l' (by simp)
  have ht := (List.isChain_append.1 hs.tiles).2.1
  rw [List.isChain_cons_cons] at ht
  have hle : l.q.store.zoom ≤ l'.q.store.zoom := ht.1.1
  obtain ⟨tw, k, hov, hmeet⟩ := hs.opened (pre.map Level.node ++ [l.node]) l'.node
    (post.map Level.node) (by simp) (by simp) l'.q hl'.1
  have hkq : k.q = l.q := by
    have hn := hov.nodes
    rw [List.map_append, List.map_singleton] at hn
    have hkn : k.node = l.node := List.singleton_inj.1 (List.append_inj' hn rfl).2
    have := (hov.answers k (by simp)).1
    rw [hkn, hl.1] at this
    exact (Option.some.inj this).symm
  rw [hkq] at hmeet
  have hmeet := hmeet hle
  have hin := hmem _ hov
  have hss := nextSteps_ok hw.src hok h
  unfold nextSteps at h
  rw [hstate, if_neg (List.ne_nil_of_mem hin), Option.map_eq_some_iff] at h
  obtain ⟨os, hos, rfl⟩ := h
  rw [← hw.node] at hc
  obtain ⟨o, ho, hco⟩ := mapM_mem_left hos c hc
  unfold nextStep at hco
  rw [hget] at hco
  simp only [Option.bind_eq_bind, Option.bind_eq_some_iff] at hco
  obtain ⟨q, hq, boxes, hboxes, hco⟩ := hco
  rw [hl'.1] at hq
  cases hq
  have hzoom := level_zooms hr hs.path hl.1 hl'.1
  rw [hw.q] at hboxes
  have hany : (boxes.any (anyInside (points groups.flatten))) = true := by
    rw [anyInside_iff hboxes hle (hzoom.imp id And.right)]
    refine ⟨_, hin, ?_⟩
    rw [List.reverse_append, List.reverse_singleton, List.singleton_append, stackCtx_first]
    exact hmeet
  rw [if_pos hany, Option.map_eq_some_iff] at hco
  obtain ⟨st', hst', rfl⟩ := hco
  obtain ⟨n1, n2, n3, n4, n5, n6, _⟩ := newStep_some hst'
  have hmem' : st' ∈ os.filterMap id := List.mem_filterMap.2 ⟨some st', ho, rfl⟩
  refine ⟨st', hmem', ?_, n2, n3, by simp, ?_⟩
  · have := hss st' hmem'
    rw [hw.node] at this
    rw [List.map_append]
    exact this
  · intro u up hu
    have hu' : u = l := by
      have := congrArg List.getLast? hu
      rw [List.getLast?_concat, List.getLast?_concat] at this
      exact (Option.some.inj this).symm
    subst hu'
    refine ⟨fun q hq => ?_, groups.flatten, n4, fun up hup => hmem up ?_⟩
    · rw [n5, hw.q]
      rw [hl.1] at hq
      rw [Option.some.inj hq]
    · rw [List.map_append] at hup
      exact hup

/-! ## The loop -/

/-- The context of a stack as it is returned. -/
def finalCtx (ls : List Level) : Context := (stackCtx ls.reverse).penalize

/-- The stack is among the results, or there are forty others for its last match key that are at
least as good. -/
def Found (env : TreeEnv) (t : StackTree) (opts : MatchOpts) (ls : List Level)
    (cs : List Context) : Prop :=
  finalCtx ls ∈ cs ∨ ∃ better : List Context, better.Subperm cs ∧ better.length = 40 ∧
    ∀ r ∈ better, (finalCtx ls).sortKey ≤ r.sortKey ∧
      ∃ ls', StackedFrom env.toEnv t opts ls' r ∧ SameLastKey ls' ls

theorem Found.mono {env : TreeEnv} {t : StackTree} {opts : MatchOpts} {ls : List Level}
    {cs cs' : List Context} (h : Found env t opts ls cs) (hs : cs.Subperm cs') :
    Found env t opts ls cs' := by
  rcases h with h | ⟨better, h1, h2⟩
  · exact Or.inl (hs.subset h)
  · exact Or.inr ⟨better, h1.trans hs, h2⟩

theorem Found.kept {env : TreeEnv} {t : StackTree} {opts : MatchOpts} {ls : List Level}
    {cs all : List Context} (h : Found env t opts ls all) (hk : Retained cs all) :
    Found env t opts ls cs ∨ Outdone (finalCtx ls).sortKey cs := by
  rcases h with h | ⟨better, h1, h2, h3⟩
  · exact (hk.mem h).imp Or.inl id
  · exact (hk.subperm h1 fun r hr => (h3 r hr).1).imp (fun h => Or.inr ⟨better, h, h2, h3⟩) id

/-- The last scan of the stack is given up. -/
def Dropped (env : TreeEnv) (t : StackTree) (opts : MatchOpts) (pms : List Subquery)
    (ls : List Level) (cs : List Context) : Prop :=
  ∃ up l, ls = up ++ [l] ∧ SlowScan (l.q, l.kg) ∧ l.node.children = [] ∧
    (WeightsPositive pms → ∃ b ∈ cs, ∀ c, StackedFrom env.toEnv t opts ls c →
      c.relev ≤ lit 0.75 * b.relev)

theorem Dropped.mono {env : TreeEnv} {t : StackTree} {opts : MatchOpts} {pms : List Subquery}
    {ls : List Level} {cs cs' : List Context} (h : Dropped env t opts pms ls cs)
    (hs : cs.Subperm cs') : Dropped env t opts pms ls cs' := by
  obtain ⟨up, l, h1, h2, h3, h4⟩ := h
  refine ⟨up, l, h1, h2, h3, fun hw => ?_⟩
  obtain ⟨b, hb, h5⟩ := h4 hw
  exact ⟨b, hs.subset hb, h5⟩

theorem Dropped.round {env : TreeEnv} {t : StackTree} {opts : MatchOpts} {pms : List Subquery}
    {ls : List Level} {s s' : TreeState} {taken : List Step} {keys : List FetchKey}
    {results : List Fetched} {expanded : List (List Context × List Step)}
    (hd : Dropped env t opts pms ls s.contexts)
    (h : Round env t opts s s' taken keys results expanded) :
    Dropped env t opts pms ls s'.contexts := by
  obtain ⟨up, l, h1, h2, h3, h4⟩ := hd
  refine ⟨up, l, h1, h2, h3, fun hw => ?_⟩
  obtain ⟨b, hb, h5⟩ := h4 hw
  obtain ⟨b', hb', h6⟩ := three_quarters_round h ⟨b, hb, le_rfl⟩
  exact ⟨b', hb', fun c hc => (h5 c hc).trans h6⟩

/-- It is decided what becomes of the stack. -/
def Decided (env : TreeEnv) (t : StackTree) (opts : MatchOpts) (pms : List Subquery)
    (ls : List Level) (cs : List Context) : Prop :=
  Found env t opts ls cs ∨ Dropped env t opts pms ls cs ∨ Outdone (finalCtx ls).sortKey cs

/-- The step is waiting, or was when the loop stopped. -/
def TreeState.Undone (s : TreeState) (st : Step) : Prop := st ∈ s.stopped.toList ++ s.left

/-- The stack goes on below one of these nodes. -/
def CutOff (few : List StackNode) (ls : List Level) : Prop :=
  ∃ pre l post, ls = pre ++ l :: post ∧ ∃ n ∈ few, (pre.map Level.node).getLast? = some n

theorem climbs_notSingle {env : TreeEnv} {t : StackTree} {opts : MatchOpts} {pre post : List Level}
    {l : Level} (hs : Climbs env.toEnv t opts (pre ++ l :: post)) {st : Step}
    (hw : Waiting env t opts pre l st) : st.isSingle = false := by
  unfold Step.isSingle
  rcases List.eq_nil_or_concat pre with rfl | ⟨up, u, rfl⟩
  · rw [hw.node]
    have hne : l.node.children ≠ [] := by
      cases post with
      | nil =>
        intro hnil
        exact hs.notAlone ⟨l, rfl, hnil⟩
      | cons l' post =>
        obtain ⟨c, hc, _⟩ := hs.path.2.1
        exact List.ne_nil_of_mem hc
    cases hch : l.node.children with
    | nil => exact absurd hch hne
    | cons a b => simp
  · rw [List.concat_eq_append] at hw
    obtain ⟨_, prev, hp, _⟩ := hw.prev u up rfl
    rw [hp]
    rfl

theorem sublist_flatMap_of_mem {α β : Type} {l : List α} {f : α → List β} {a : α} (h : a ∈ l) :
    (f a).Sublist (l.flatMap f) := by
  obtain ⟨s, t, rfl⟩ := List.append_of_mem h
  rw [List.flatMap_append, List.flatMap_cons]
  exact (List.sublist_append_left _ _).trans (List.sublist_append_right _ _)

/-- What a step can lead to is not more than three quarters of the best, if it is skipped. -/
theorem skipped_bound {env : TreeEnv} {cs : List Context} {st : Step} {kg : KeyWithId}
    (hk : Skipped env cs st kg) (hn : NotesPossible st) (hw : st.q.weight.IsFin)
    (hv : st.q.weight.Valid) (h0 : 0 < st.q.weight) :
    ∃ b ∈ cs, st.possible ≤ lit 0.75 * b.relev := by
  have h1 := hk.2.2
  unfold notWorthIt at h1
  rw [Bool.and_eq_true] at h1
  have h2 := fle_le h1.2
  cases hp : env.contexts.peekMax cs with
  | some b =>
    rw [hp] at h2
    exact ⟨b, env.contexts.peekMax_mem _ _ hp, h2⟩
  | none =>
    exfalso
    rw [hp] at h2
    have h3 : st.q.weight ≤ st.possible := by
      cases hpr : st.prev with
      | none => rw [hn.1 hpr]
      | some prev =>
        obtain ⟨best, e1, hbn, e2, _⟩ := hn.2 prev hpr
        have hb : 0 ≤ best := by
          rcases e2 with rfl | ⟨e2, _⟩
          · exact le_rfl
          · exact e2.le
        rw [e1]
        calc st.q.weight = 0 + st.q.weight := (F64.zero_add' hw hv).symm
          _ ≤ best + st.q.weight :=
            add_le_add_fin F64.noConfusion hbn hw hw hb le_rfl
    have h4 : lit 0.75 * (((none : Option Context).map (·.relev)).getD 0) = 0 := by decide +kernel
    rw [h4] at h2
    exact absurd (lt_of_lt_of_le h0 (h3.trans h2)) (lt_irrefl _)

/-- A stack reaches no more than what is noted for the step of its last level. -/
theorem waiting_bound {env : TreeEnv} {t : StackTree} {opts : MatchOpts} {pms : List Subquery}
    (hr : RunOk env t opts pms) (hw : WeightsPositive pms) {pre : List Level} {l : Level}
    (hs : Climbs env.toEnv t opts (pre ++ [l])) (hroom : ∀ k ∈ pre ++ [l], HasRoom t (k.q, k.kg))
    {st : Step} (hwt : Waiting env t opts pre l st)
    (hn : NotesPossible st) {c : Context} (hc : StackedFrom env.toEnv t opts (pre ++ [l]) c) :
    c.relev ≤ st.possible := by
  have hlev : ∀ k ∈ pre ++ [l], k.relev.IsFin ∧ k.q.weight.IsFin ∧ k.relev ≤ k.q.weight ∧
      k.relev.Valid := by
    intro k hk
    obtain ⟨h1, h2, o, before, after, h3, h4, _⟩ := hs.answers k hk
    have ha : k.Answers env.toEnv opts 100000 := ⟨h1, h2, o, _, h3, h4, by simp⟩
    obtain ⟨w1, w2, w3⟩ := hw k.q ((path_pms hr hs.path).1 k.node (List.mem_map_of_mem hk) k.q h1)
    obtain ⟨r1, _, r3, r4⟩ := level_relev ha w1 w2 w3.le
    exact ⟨r1, w1, r3, r4⟩
  have notNan : ∀ {x : F64}, x.IsFin → x ≠ .nan := by
    rintro x hx rfl
    exact hx
  have hsum : sumRelev ((pre ++ [l]).map Level.relev) ≠ .nan ∧
      (sumRelev ((pre ++ [l]).map Level.relev)).Valid ∧
      sumRelev ((pre ++ [l]).map Level.relev) ≤ st.possible := by
    obtain ⟨l1, l2, l3, l4⟩ := hlev l (by simp)
    rw [← hwt.q] at l2 l3
    rcases List.eq_nil_or_concat pre with rfl | ⟨up, u, rfl⟩
    · rw [hn.1 (hwt.first rfl)]
      exact ⟨notNan l1, l4, l3⟩
    · rw [List.concat_eq_append] at hs hroom hwt hlev ⊢
      obtain ⟨_, prev, hp, hm⟩ := hwt.prev u up rfl
      have hm := hm (up ++ [u]) ⟨rfl, fun a ha => hs.answers a (List.mem_append_left _ ha),
        fun a ha => hroom a (List.mem_append_left _ ha), (List.isChain_append.1 hs.tiles).1⟩
      obtain ⟨best, e1, hbn, _, e3⟩ := hn.2 prev hp
      rw [List.map_append, List.map_singleton, sumRelev_concat (by simp)]
      have hrel := stackCtx_relev (ls := up ++ [u]) (by simp)
      have hpre : sumRelev ((up ++ [u]).map Level.relev) ≠ .nan := by
        obtain ⟨a, rest, he⟩ : ∃ a rest, up ++ [u] = a :: rest := by
          cases up with
          | nil => exact ⟨u, [], rfl⟩
          | cons a r => exact ⟨a, r ++ [u], rfl⟩
        rw [he] at hlev ⊢
        obtain ⟨a1, a2, a3, a4⟩ := hlev a (by simp)
        rw [List.map_cons]
        unfold sumRelev
        refine (foldl_add_le (ls := rest) (fun k hk => ?_) (notNan a1) a4 (notNan a1) le_rfl).1
        obtain ⟨k1, k2, k3, _⟩ := hlev k (by simp [hk])
        exact ⟨k1, k2, k3⟩
      have hle : sumRelev ((up ++ [u]).map Level.relev) ≤ best := by
        rw [← hrel]
        exact e3 _ hm (by rw [hrel]; exact hpre)
      rw [e1]
      exact ⟨add_ne_nan hpre l1, add_fin_valid l1, add_le_add_fin hpre hbn l1 l2 hle l3⟩
  by_cases hp : Penalized (pre ++ [l])
  · rw [hc.penalty hp]
    exact (sub_le_self hsum.1 hsum.2.1 (by decide +kernel) (by decide +kernel)).trans hsum.2.2
  · rw [hc.plain hp]
    exact hsum.2.2

theorem pending_round {env : TreeEnv} {t : StackTree} {opts : MatchOpts} {pms : List Subquery}
    (hr : RunOk env t opts pms) {ls : List Level} (hs : Climbs env.toEnv t opts ls)
    {s s' : TreeState} (hi : Decided env t opts pms ls s.contexts ∨
      ∃ pre l post, ls = pre ++ l :: post ∧ ∃ st ∈ s.steps, Waiting env t opts pre l st)
    {taken : List Step}
    {keys : List FetchKey} {results : List Fetched} {expanded : List (List Context × List Step)}
    (h : Round env t opts s s' taken keys results expanded)
    (hgen : GenuineInv env t opts pms s')
    (hc : CacheFull env opts pms s'.cache)
    (hposs : ∀ st ∈ s.steps, NotesPossible st)
    (hroom : ∀ l ∈ ls, RoomToTryFor (scansOf t) (l.q, l.kg))
    (hserved : ∀ st ∈ taken, st.isSingle = false → ∀ kg ∈ st.q.matchKeys,
      RoomToTryFor (scansOf t) (st.q, kg) →
      Served s.cache keys kg.id ∨ Skipped env s.contexts st kg) :
    Decided env t opts pms ls s'.contexts ∨
      ∃ pre l post, ls = pre ++ l :: post ∧ ∃ st, Waiting env t opts pre l st ∧
        (s'.Undone st ∨ (st ∈ s'.steps ∧ ∃ st₀ ∈ taken, st₀.isSingle = false ∧
          (pre.map Level.node).getLast? = some st₀.node)) := by
  obtain ⟨all, hkept, hold, hnew, _⟩ := h.kept
  have done : Found env t opts ls all → Decided env t opts pms ls s'.contexts := fun hf =>
    (hf.kept hkept).imp id Or.inr
  rcases hi with (hi | hi | hi) | ⟨pre, l, post, rfl, st, hst, hw⟩
  · exact Or.inl (done (hi.mono hold))
  · exact Or.inl (Or.inr (Or.inl (hi.round h)))
  · exact Or.inl (Or.inr (Or.inr (hi.round h)))
  · have hmem := List.mem_append.1 (h.steps.mem_iff.1 hst)
    rcases hmem with hmem | hmem
    · -- the step is processed in this round
      have hns := climbs_notSingle hs hw
      have hl := hs.answers l (by simp)
      rcases hserved st hmem hns l.kg (by rw [hw.q]; exact hl.2.1)
        (by rw [hw.q]; exact hroom l (by simp)) with hsv | hsk
      swap
      · left; right; left
        have hch : l.node.children = [] := by
          have h1 := hsk.2.2
          unfold notWorthIt StackNode.isLeaf at h1
          rw [Bool.and_eq_true, Bool.and_eq_true, hw.node] at h1
          exact List.length_eq_zero_iff.1 (by simpa using h1.1.2)
        cases post with
        | cons l' post =>
          exfalso
          have hpath := hs.path
          rw [List.map_append, List.map_cons, List.map_cons, treePath_append] at hpath
          obtain ⟨c, hc, _⟩ := hpath.2.2.1
          rw [hch] at hc
          cases hc
        | nil =>
          refine ⟨pre, l, rfl, ?_, hch, fun hwp => ?_⟩
          · have := hsk.slow
            rwa [hw.q] at this
          · obtain ⟨w1, w2, w3⟩ := hwp l.q
              ((path_pms hr hs.path).1 l.node (List.mem_map_of_mem (by simp)) l.q hl.1)
            rw [← hw.q] at w1 w2 w3
            obtain ⟨b, hb, hbd⟩ := skipped_bound hsk (hposs st hst) w1 w2 w3
            obtain ⟨b', hb', hbd'⟩ := three_quarters_round h ⟨b, hb, hbd⟩
            exact ⟨b', hb', fun c hc =>
              (waiting_bound hr hwp hs hroom hw (hposs st hst) hc).trans hbd'⟩
      have hcached : (HMap.find l.kg.id s'.cache).isSome = true := served_cached h hsv
      obtain ⟨r, hrr, hre⟩ := mapM_mem_left h.grown st (by simp [hmem, hns])
      obtain ⟨scale, groups, e1, e2, e3, e4⟩ := expandStep_some hre
      obtain ⟨g, hg, hge⟩ := mapM_mem_left e2 l.kg (by rw [hw.q]; exact hl.2.1)
      have hin := waiting_expands hr hw (up := pre) (k := l) ⟨by simp,
        fun a ha => hs.answers a (by
          rcases List.mem_append.1 ha with ha | ha
          · exact List.mem_append_left _ ha
          · rw [List.mem_singleton.1 ha]; simp),
        fun a ha => hroom a (by
          rcases List.mem_append.1 ha with ha | ha
          · exact List.mem_append_left _ ha
          · rw [List.mem_singleton.1 ha]; simp), by
        have := hs.tiles
        rw [← List.singleton_append, ← List.append_assoc] at this
        exact (List.isChain_append.1 this).1⟩ hc hcached e1 hge
      have hok : ∀ kg ∈ st.q.matchKeys, ∀ g, expandKey env s'.cache st scale kg = some g →
          ∀ c ∈ g, ∃ ls k, TreeBuilt env t opts (ls ++ [k]) c ∧
          (ls ++ [k]).map Level.node = pre.map Level.node ++ [st.node] ∧ k.q = st.q ∧
          k.kg = kg := by
        intro kg hkg g hge
        exact expandKey_built hr hgen.cache hw.src e1 hkg hge
      cases post with
      | cons l' post =>
        right
        have hok' : ∀ g ∈ groups, ∀ c ∈ g, ∃ ls k, TreeBuilt env t opts (ls ++ [k]) c ∧
            (ls ++ [k]).map Level.node = pre.map Level.node ++ [st.node] ∧ k.q = st.q := by
          intro g hg c hcg
          obtain ⟨kg, hkg, hge⟩ := mapM_mem e2 g hg
          obtain ⟨ls, k, h1, h2, h3, _⟩ := hok kg hkg g hge c hcg
          exact ⟨ls, k, h1, h2, h3⟩
        have hall : ∀ up, Over (HasRoom t) env.toEnv opts (pre.map Level.node ++ [l.node]) up →
            stackCtx up.reverse ∈ groups.flatten := by
          intro up hov
          rcases List.eq_nil_or_concat up with rfl | ⟨up, k, rfl⟩
          · have := hov.nodes
            simp at this
          rw [List.concat_eq_append] at hov ⊢
          have hkn : k.node = l.node := by
            have hn := hov.nodes
            rw [List.map_append, List.map_singleton] at hn
            exact List.singleton_inj.1 (List.append_inj' hn rfl).2
          obtain ⟨hk1, hk2, _⟩ := hov.answers k (by simp)
          have hkq : st.q = k.q := by
            have := hw.src.pm
            rw [hw.node, ← hkn, hk1] at this
            exact (Option.some.inj this).symm
          have hkey : k.kg ∈ st.q.matchKeys := by rw [hkq]; exact hk2
          rcases hserved st hmem hns k.kg hkey (by rw [hkq]; exact hov.scans k (by simp)) with
            hsv | hsk
          · obtain ⟨g', hg', hge'⟩ := mapM_mem_left e2 k.kg hkey
            rw [List.reverse_append, List.reverse_singleton, List.singleton_append]
            exact List.mem_flatten.2 ⟨g', hg', waiting_expands hr hw hov hc (served_cached h hsv) e1
              hge'⟩
          · exfalso
            have h1 := hsk.2.2
            unfold notWorthIt StackNode.isLeaf at h1
            rw [Bool.and_eq_true, Bool.and_eq_true, hw.node] at h1
            have hch : l.node.children = [] := List.length_eq_zero_iff.1 (by simpa using h1.1.2)
            have hpath := hs.path
            rw [List.map_append, List.map_cons, List.map_cons, treePath_append] at hpath
            obtain ⟨c, hc, _⟩ := hpath.2.2.1
            rw [hch] at hc
            cases hc
        obtain ⟨st', hst', hw'⟩ := waiting_next hr hs hw hall hok' e3
        refine ⟨pre ++ [l], l', post, by simp, st', hw', Or.inr ⟨?_, st, hmem, hns, ?_⟩⟩
        · refine h.next.mem_iff.2 (List.mem_append_left _ ?_)
          exact List.mem_flatMap.2 ⟨r, hrr, hst'⟩
        · rw [List.map_append, List.map_singleton, List.getLast?_concat, hw.node]
      | nil =>
        left
        refine done ?_
        have hfin : finalCtx (pre ++ [l]) = (stackCtx (l :: pre.reverse)).penalize := by
          unfold finalCtx
          rw [List.reverse_append, List.reverse_singleton, List.singleton_append]
        have hsub : (cpqPushAll env.contexts maxContexts [] (g.map Context.penalize)).Subperm
            all := by
          refine List.Subperm.trans ?_ hnew
          refine (List.Sublist.trans ?_ (sublist_flatMap_of_mem hrr)).subperm
          rw [e4]
          exact sublist_flatMap_of_mem (f := fun g =>
            cpqPushAll env.contexts maxContexts [] (g.map Context.penalize)) hg
        obtain ⟨out, hbest⟩ := C28_queue_keeps_best env.contexts maxContexts
          (g.map Context.penalize)
        have hall := hbest.perm.mem_iff.2 (List.mem_map_of_mem (f := Context.penalize) hin)
        rcases List.mem_append.1 hall with hall | hall
        · left
          rw [hfin]
          exact hsub.subset hall
        · right
          refine ⟨_, hsub, ?_, ?_⟩
          · have h1 := hbest.perm.length_eq
            have h2 := hbest.size
            have h3 := List.length_pos_of_mem hall
            rw [List.length_append] at h1
            have h4 : maxContexts = 40 := rfl
            omega
          · intro c hcc
            refine ⟨by rw [hfin]; exact hbest.best c hcc _ hall, ?_⟩
            have := hbest.perm.mem_iff.1 (List.mem_append_left _ hcc)
            obtain ⟨c0, hc0, rfl⟩ := List.mem_map.1 this
            obtain ⟨ls, k, h1, h2, h3, h4⟩ := hok l.kg (by rw [hw.q]; exact hl.2.1) g hge c0 hc0
            refine ⟨ls ++ [k], h1.penalize ?_, ?_, ?_⟩
            · rintro rfl
              have hlen := congrArg List.length h2
              simp only [List.nil_append, List.map_cons, List.map_nil, List.length_append,
                List.length_cons, List.length_nil, List.length_map] at hlen
              have hpre : pre = [] := List.length_eq_zero_iff.1 (by omega)
              subst hpre
              simp only [List.nil_append, List.map_cons, List.map_nil, List.cons.injEq,
                and_true] at h2
              rw [h2, hw.node]
              intro hnil
              exact hs.notAlone ⟨l, rfl, hnil⟩
            · rw [h2, hw.node, List.map_append]
              rfl
            · rw [List.getLast?_concat, List.getLast?_concat, Option.map_some, Option.map_some, h4]
    · exact Or.inr ⟨pre, l, post, rfl, st, hw, Or.inl hmem⟩

theorem treeInit_complete {env : TreeEnv} {t : StackTree} {opts : MatchOpts}
    {ls : List Level} (hs : Climbs env.toEnv t opts ls) {s : TreeState}
    (h : treeInit env t opts = some s) :
    ∃ pre l post, ls = pre ++ l :: post ∧ ∃ st ∈ s.steps, Waiting env t opts pre l st := by
  obtain ⟨ss, hss, hp, h1, h2, h3, h4, h5, h6⟩ := treeInit_some h
  cases ls with
  | nil => exact absurd rfl hs.ne
  | cons l post =>
    refine ⟨[], l, post, rfl, ?_⟩
    obtain ⟨c, hc, hget⟩ := hs.path.1
    have hl := hs.answers l (by simp)
    have hgen := (treeInit_genuine (pms := []) h).steps
    have hss' := hss
    unfold firstSteps at hss
    rw [Option.map_eq_some_iff] at hss
    obtain ⟨os, hos, rfl⟩ := hss
    obtain ⟨o, ho, hco⟩ := mapM_mem_left hos c hc
    rw [hget] at hco
    simp only [Option.bind_eq_some_iff, Option.map_eq_some_iff] at hco
    obtain ⟨q, hq, st, hst, rfl⟩ := hco
    rw [hl.1] at hq
    cases hq
    obtain ⟨n1, n2, n3, n4, n5, n6, _⟩ := newStep_some hst
    have hmem : st ∈ os.filterMap id := List.mem_filterMap.2 ⟨some st, ho, rfl⟩
    obtain ⟨f1, f2, f3, f4, f5, f6⟩ := (firstSteps_some hss').2 st hmem
    refine ⟨st, hp.mem_iff.2 hmem, ⟨⟨⟨st.ix, f2, f1⟩, trivial⟩, f3, f6, fun _ => rfl, ?_⟩, n2, n3,
      fun _ => n4, ?_⟩
    · intro prev hpr
      rw [f4] at hpr
      cases hpr
    · intro u up hu
      simp at hu

/-- All invariants together. -/
structure RunInv (env : TreeEnv) (t : StackTree) (opts : MatchOpts) (pms : List Subquery)
    (s : TreeState) : Prop where
  once : OnceInv t s
  genuine : GenuineInv env t opts pms s
  cache : CacheFull env opts pms s.cache
  serve : ServeInv env t s
  possible : ∀ st ∈ s.steps, NotesPossible st
  stop : StopInfo s
  going : s.stopped = none → ∀ ls, Climbs env.toEnv t opts ls →
    (∀ l ∈ ls, RoomToTryFor (scansOf t) (l.q, l.kg)) → Decided env t opts pms ls s.contexts ∨
      ∃ pre l post, ls = pre ++ l :: post ∧ ∃ st ∈ s.steps, Waiting env t opts pre l st
  ended : s.stopped.isSome = true → ∃ few : List StackNode, few.length ≤ 7 ∧
    ∀ ls, Climbs env.toEnv t opts ls → (∀ l ∈ ls, RoomToTryFor (scansOf t) (l.q, l.kg)) →
      Decided env t opts pms ls s.contexts ∨ (∃ st, s.Undone st ∧ st.node ∈ ls.map Level.node) ∨ CutOff few ls

/-- What becomes of the stacks. -/
theorem treeLoop_full {env : TreeEnv} {t : StackTree} {opts : MatchOpts} {pms : List Subquery}
    (hr : RunOk env t opts pms)
    (ht : ((t.arena.nodes.map Prod.fst).flatMap StackNode.children ++ t.root.children).Nodup)
    {s₀ s : TreeState} (h0 : treeInit env t opts = some s₀)
    (h : treeLoop env t opts t.arena.nodes.length s₀ = some s) :
    ∃ few : List StackNode, few.length ≤ 7 ∧ ∀ ls, Climbs env.toEnv t opts ls →
      (∀ l ∈ ls, RoomToTryFor (scansOf t) (l.q, l.kg)) →
      Decided env t opts pms ls s.contexts ∨ (maxResults ≤ s.contexts.length ∧
        ((∃ n ∈ ls.map Level.node, ∀ r ∈ s.contexts, n.maxRelev ≤ r.relev) ∨
          CutOff few ls)) := by
  obtain ⟨ss, hss, hp, h1, h2, h3, h4, h5, h6⟩ := treeInit_some h0
  have hinit : RunInv env t opts pms s₀ := by
    refine ⟨treeInit_once h0, treeInit_genuine h0, ?_, ?_, treeInit_possible h0, ?_,
      fun _ ls hs _ => Or.inr (treeInit_complete hs h0), ?_⟩
    · rw [h2]
      intro p hp
      cases hp
    · unfold ServeInv
      rw [h3]
      exact ⟨Nat.zero_le _, Nat.zero_le _, Nat.zero_le _, Nat.zero_le _, Nat.zero_le _⟩
    · intro st hst
      rw [h6] at hst
      cases hst
    · intro hst
      rw [h6] at hst
      cases hst
  have hfin := treeLoop_finished ht _ (treeInit_once h0) (by omega) h
  have hend := treeLoop_induct (P := RunInv env t opts pms) (by
    intro s s' taken keys results expanded hi hnf hround
    have hrun : s.stopped = none := by
      unfold TreeState.finished at hnf
      rw [Bool.or_eq_false_iff] at hnf
      exact Option.not_isSome_iff_eq_none.1 (by simp [hnf.2])
    obtain ⟨v1, v2, _⟩ := round_served ht hi.once hi.genuine hi.serve hround
    have hg := hi.genuine.round hr hround
    have hc := cacheFull_round hr hi.genuine hi.cache hround
    have hnext := fun ls hs hm =>
      pending_round hr hs (hi.going hrun ls hs hm) hround hg hc hi.possible hm v2
    refine ⟨hi.once.round ht hround, hg, hc, v1, hround.possible hi.possible, hround.stopInfo,
      fun hns ls hs hm => ?_, fun hst => ?_⟩
    · refine (hnext ls hs hm).imp id ?_
      rintro ⟨pre, l, post, he, st, hw, hu | ⟨hu, _⟩⟩
      · unfold TreeState.Undone at hu
        rw [hns, Option.toList_none, List.nil_append] at hu
        exact ⟨pre, l, post, he, st, hround.next.mem_iff.2 (List.mem_append_right _ hu), hw⟩
      · exact ⟨pre, l, post, he, st, hu, hw⟩
    · refine ⟨(taken.filter fun st => !st.isSingle).map Step.node,
        by rw [List.length_map]; exact hround.few hst, fun ls hs hm => ?_⟩
      refine (hnext ls hs hm).imp id ?_
      rintro ⟨pre, l, post, he, st, hw, hu | ⟨_, st₀, hst₀, hns, hl⟩⟩
      · exact Or.inl ⟨st, hu, by rw [he, hw.node]; simp⟩
      · exact Or.inr ⟨pre, l, post, he, st₀.node,
          List.mem_map_of_mem (List.mem_filter.2 ⟨hst₀, by simp [hns]⟩), hl⟩)
    _ hinit h
  cases hst : s.stopped with
  | none =>
    refine ⟨[], by simp, fun ls hs hm => Or.inl ?_⟩
    refine (hend.going hst ls hs hm).resolve_right ?_
    rintro ⟨pre, l, post, _, st, hmem, _⟩
    unfold TreeState.finished at hfin
    rw [hst] at hfin
    simp only [Option.isSome_none, Bool.or_false, List.isEmpty_iff] at hfin
    rw [hfin] at hmem
    cases hmem
  | some st =>
    obtain ⟨few, hf1, hf2⟩ := hend.ended (by rw [hst]; rfl)
    obtain ⟨hlen, hbound⟩ := hend.stop st hst
    refine ⟨few, hf1, fun ls hs hm => (hf2 ls hs hm).imp id fun hx => ⟨hlen, hx.imp ?_ id⟩⟩
    rintro ⟨st', hu, hn⟩
    refine ⟨st'.node, hn, fun r hr => hbound st' ?_ r hr⟩
    unfold TreeState.Undone at hu
    rw [hst] at hu
    simpa using hu

end Carmen
