import Verif.Lemmas.TreeFill
import Verif.Lemmas.QueryAny
import Verif.Lemmas.Arena
import Mathlib.Data.List.Flatten
import Mathlib.Data.List.Perm.Subperm

/-!
# Rounds of `tree_coalesce`
-/

namespace Carmen

/-- What a round does. -/
structure Round (env : TreeEnv) (t : StackTree) (opts : MatchOpts) (s s' : TreeState)
    (taken : List Step) (keys : List FetchKey) (results : List Fetched)
    (expanded : List (List Context × List Step)) : Prop where
  steps : s.steps.Perm (taken ++ (s'.stopped.toList ++ s'.left))
  visited : s'.visited = s.visited ++ taken.map (·.ix)
  fetched : s'.fetched = s.fetched ++ keys
  of_keys : ∀ k ∈ keys, ∃ st ∈ taken, KeyOf env.chk st k
  got : keys.mapM (fetchKey env) = some results
  cache : s'.cache = (results.foldl (absorbFetched env) (s.contexts, s.cache)).2
  grown : (taken.filter (fun st => !st.isSingle)).mapM (expandStep env t opts s'.cache) =
    some expanded
  contexts : s'.contexts = cpqPushAll env.contexts maxResults
    (results.foldl (absorbFetched env) (s.contexts, s.cache)).1 (expanded.flatMap Prod.fst)
  next : s'.steps.Perm (expanded.flatMap Prod.snd ++ s'.left)
  stopped : ∀ st, s'.stopped = some st → cannotBeat env s.contexts st = true ∧
    ∀ st' ∈ s'.left, st'.key ≤ st.key
  progress : s.steps ≠ [] → taken ≠ [] ∨ s'.stopped.isSome = true
  fill : ∃ f, s.fill env = some f ∧ f.keys = keys ∧ f.counts = s'.counts ∧
    f.chunk = taken.filter (fun st => !st.isSingle) ∧ f.visited = taken.map (·.ix)
  few : s'.stopped.isSome = true → (taken.filter (fun st => !st.isSingle)).length ≤ 7

theorem pushAll_perm {α K : Type} [LinearOrder K] {key : α → K} (H : Heap key) (es q : List α) :
    (es.foldl H.push q).Perm (es ++ q) := by
  induction es generalizing q with
  | nil => exact List.Perm.refl _
  | cons e t ih =>
    rw [List.foldl_cons, List.cons_append]
    exact (ih _).trans (((H.push_perm q e).append_left t).trans List.perm_middle)

theorem treeRound_round {env : TreeEnv} {t : StackTree} {opts : MatchOpts} {s s' : TreeState}
    (h : treeRound env t opts s = some s') :
    ∃ taken keys results expanded, Round env t opts s s' taken keys results expanded := by
  unfold treeRound at h
  simp only [Option.bind_eq_bind, Option.bind_eq_some_iff] at h
  obtain ⟨f, hf, results, hr, expanded, he, h⟩ := h
  rw [← Option.some.inj h]
  have hfill := hf
  unfold TreeState.fill at hf
  obtain ⟨taken, ht⟩ := fillChunk_filled rfl hf
  have hk : f.keys = ([] : List FetchKey) ++ f.keys := rfl
  refine ⟨taken, f.keys, results, expanded, ?_⟩
  obtain ⟨new, hn1, hn2⟩ := ht.keys
  refine ⟨ht.steps, ?_, rfl, ?_, hr, rfl, ?_, rfl, ?_, ht.stopped, ?_,
    ⟨f, hfill, rfl, rfl, ht.chunk, ht.visited⟩, ?_⟩
  · show s.visited ++ f.visited = _
    rw [ht.visited]
    rfl
  · rw [hn1]
    exact hn2
  · have hc := ht.chunk
    rw [List.nil_append] at hc
    rw [← hc]
    exact he
  · exact pushAll_perm _ _ _
  · intro hne
    cases hl : s.steps.length with
    | zero => exact absurd (List.length_eq_zero_iff.1 hl) hne
    | succ n =>
      rw [hl] at hf
      exact fillChunk_progress rfl rfl hne hf ht
  · intro hst
    have h1 := ht.few (Nat.zero_le _) hst
    have h2 := ht.chunk
    rw [List.nil_append] at h2
    rw [← h2]
    exact Nat.le_of_lt_succ h1

/-! ## Indexes of new steps -/

theorem filterMap_sublist {α : Type} {f : α → Option (Option Step)} {g : α → ℕ} {l : List α}
    {os : List (Option Step)} (h : l.mapM f = some os)
    (hf : ∀ a s, f a = some (some s) → s.ix = g a) :
    ((os.filterMap id).map (·.ix)).Sublist (l.map g) := by
  induction l generalizing os with
  | nil =>
    rw [List.mapM_nil] at h
    cases h
    exact List.Sublist.slnil
  | cons a t ih =>
    rw [List.mapM_cons] at h
    simp only [Option.bind_eq_bind, Option.bind_eq_some_iff] at h
    obtain ⟨o, ho, os', hos, h⟩ := h
    cases h
    cases o with
    | none => exact (ih hos).cons _
    | some s =>
      rw [List.filterMap_cons]
      simp only [id, List.map_cons]
      rw [hf a s ho]
      exact (ih hos).cons₂ _

theorem newStep_some {env : Env} {opts : MatchOpts} {ix : ℕ} {node : StackNode} {q : Subquery}
    {prev : Option (List Context)} {prevZoom : ℕ} {possible : F64} {s : Step}
    (h : newStep env opts ix node q prev prevZoom possible = some s) :
    s.ix = ix ∧ s.node = node ∧ s.q = q ∧ s.prev = prev ∧ s.prevZoom = prevZoom ∧
      env.adjust opts q.store.zoom = some s.opts ∧ s.possible = possible := by
  unfold newStep at h
  simp only [Option.bind_eq_bind, Option.bind_eq_some_iff] at h
  obtain ⟨o, ho, h⟩ := h
  cases h
  exact ⟨rfl, rfl, rfl, rfl, rfl, ho, rfl⟩

theorem nextStep_some {env : TreeEnv} {t : StackTree} {opts : MatchOpts} {step : Step}
    {state : List Context} {best : F64} {c : ℕ} {s : Step}
    (h : nextStep env t opts step state best c = some (some s)) :
    t.arena.get c = some s.node ∧ s.ix = c ∧ s.node.pm = some s.q ∧ s.prev = some state ∧
      s.prevZoom = step.q.store.zoom ∧ env.adjust opts s.q.store.zoom = some s.opts := by
  unfold nextStep at h
  cases hg : t.arena.get c with
  | none => rw [hg] at h; cases h
  | some child =>
    rw [hg] at h
    simp only [Option.bind_eq_bind, Option.bind_eq_some_iff] at h
    obtain ⟨q, hq, boxes, _, h⟩ := h
    split_ifs at h
    · rw [Option.map_eq_some_iff] at h
      obtain ⟨s', hs, h⟩ := h
      cases h
      obtain ⟨h1, h2, h3, h4, h5, h6, _⟩ := newStep_some hs
      rw [h2, h3]
      exact ⟨rfl, h1, hq, h4, h5, h6⟩
    · cases h

theorem nextSteps_ix {env : TreeEnv} {t : StackTree} {opts : MatchOpts} {step : Step}
    {groups : List (List Context)} {ss : List Step}
    (h : nextSteps env t opts step groups = some ss) :
    (ss.map (·.ix)).Sublist step.node.children := by
  unfold nextSteps at h
  split_ifs at h
  · cases h
    exact List.nil_sublist _
  · rw [Option.map_eq_some_iff] at h
    obtain ⟨os, hos, rfl⟩ := h
    have := filterMap_sublist (g := id) hos (fun a s hs => (nextStep_some hs).2.1)
    rwa [List.map_id] at this

theorem expandStep_some {env : TreeEnv} {t : StackTree} {opts : MatchOpts}
    {cache : HMap ℕ (List MatchEntry)} {step : Step} {r : List Context × List Step}
    (h : expandStep env t opts cache step = some r) :
    ∃ scale groups, scaleFactor env.chk step.q.store.zoom step.prevZoom = some scale ∧
      step.q.matchKeys.mapM (expandKey env cache step scale) = some groups ∧
      nextSteps env t opts step groups = some r.2 ∧
      r.1 = groups.flatMap
        (fun g => cpqPushAll env.contexts maxContexts [] (g.map Context.penalize)) := by
  unfold expandStep at h
  simp only [Option.bind_eq_bind, Option.bind_eq_some_iff] at h
  obtain ⟨scale, h1, groups, h2, next, h3, h⟩ := h
  cases h
  exact ⟨scale, groups, h1, h2, h3, rfl⟩

theorem expanded_ix {env : TreeEnv} {t : StackTree} {opts : MatchOpts}
    {cache : HMap ℕ (List MatchEntry)} {chunk : List Step}
    {expanded : List (List Context × List Step)}
    (h : chunk.mapM (expandStep env t opts cache) = some expanded) :
    ((expanded.flatMap Prod.snd).map (·.ix)).Sublist (chunk.flatMap fun s => s.node.children) := by
  induction chunk generalizing expanded with
  | nil =>
    rw [List.mapM_nil] at h
    cases h
    exact List.Sublist.slnil
  | cons a l ih =>
    rw [List.mapM_cons] at h
    simp only [Option.bind_eq_bind, Option.bind_eq_some_iff] at h
    obtain ⟨r, hr, rs, hrs, h⟩ := h
    cases h
    obtain ⟨_, _, _, _, h1, _⟩ := expandStep_some hr
    rw [List.flatMap_cons, List.flatMap_cons, List.map_append]
    exact (nextSteps_ix h1).append (ih hrs)

/-! ## Every node once -/

/-- The children of the node inserted as number `i`. -/
def childrenAt (t : StackTree) (i : ℕ) : List ℕ :=
  ((t.arena.nodes[i]?).map fun p => p.1.children).getD []

/-- The node of a step is in the tree under its index. -/
def StepAt (t : StackTree) (s : Step) : Prop := t.arena.get s.ix = some s.node

theorem StepAt.children {t : StackTree} {s : Step} (h : StepAt t s) :
    childrenAt t s.ix = s.node.children := by
  have := Arena.get_eq_some.1 h
  unfold childrenAt
  rw [this]
  rfl

/-- The invariant behind termination. -/
structure OnceInv (t : StackTree) (s : TreeState) : Prop where
  at_ : ∀ st ∈ s.steps, StepAt t st
  sub : (s.visited ++ s.steps.map (·.ix)).Subperm
    (t.root.children ++ s.visited.flatMap (childrenAt t))
  nodup : s.visited.Nodup
  bound : ∀ i ∈ s.visited, i < t.arena.nodes.length

theorem StepAt.lt {t : StackTree} {s : Step} (h : StepAt t s) : s.ix < t.arena.nodes.length := by
  have := Arena.get_eq_some.1 h
  exact (List.getElem?_eq_some_iff.1 this).1

theorem flatMap_childrenAt (t : StackTree) :
    (List.range t.arena.nodes.length).flatMap (childrenAt t) =
      (t.arena.nodes.map Prod.fst).flatMap StackNode.children := by
  have key : ∀ l : List (StackNode × Bool),
      (List.range l.length).flatMap (fun i => ((l[i]?).map fun p => p.1.children).getD []) =
        (l.map Prod.fst).flatMap StackNode.children := by
    intro l
    induction l using List.reverseRecOn with
    | nil => rfl
    | append_singleton l a ih =>
      rw [List.length_append, List.length_singleton, List.range_succ, List.flatMap_append,
        List.map_append, List.flatMap_append, ← ih]
      congr 1
      · rw [List.flatMap_def, List.flatMap_def]
        congr 1
        refine List.map_congr_left ?_
        intro i hi
        rw [List.mem_range] at hi
        rw [List.getElem?_append_left hi]
      · simp
  exact key _

theorem OnceInv.all_nodup {t : StackTree} {s : TreeState} (h : OnceInv t s)
    (ht : ((t.arena.nodes.map Prod.fst).flatMap StackNode.children ++ t.root.children).Nodup) :
    (s.visited ++ s.steps.map (·.ix)).Nodup := by
  have h1 : s.visited.Subperm (List.range t.arena.nodes.length) :=
    h.nodup.subperm fun i hi => List.mem_range.2 (h.bound i hi)
  obtain ⟨l, hl1, hl2⟩ := h1
  have h2 : (s.visited.flatMap (childrenAt t)).Subperm
      ((t.arena.nodes.map Prod.fst).flatMap StackNode.children) := by
    rw [← flatMap_childrenAt]
    exact ⟨_, hl1.flatMap_right _, hl2.flatMap _⟩
  have h3 := h.sub.trans (List.Subperm.append (List.Subperm.refl t.root.children) h2)
  obtain ⟨l', hp, hs⟩ := h3
  exact hp.nodup_iff.1 ((List.perm_append_comm.nodup_iff.1 ht).sublist hs)

theorem expanded_stepAt {env : TreeEnv} {t : StackTree} {opts : MatchOpts}
    {cache : HMap ℕ (List MatchEntry)} {chunk : List Step}
    {expanded : List (List Context × List Step)}
    (h : chunk.mapM (expandStep env t opts cache) = some expanded) :
    ∀ st ∈ expanded.flatMap Prod.snd, StepAt t st := by
  intro st hst
  obtain ⟨r, hr, hst⟩ := List.mem_flatMap.1 hst
  obtain ⟨a, _, ha⟩ := mapM_mem h r hr
  obtain ⟨_, groups, _, _, h1, _⟩ := expandStep_some ha
  unfold nextSteps at h1
  split_ifs at h1
  · rw [← Option.some.inj h1] at hst
    cases hst
  · rw [Option.map_eq_some_iff] at h1
    obtain ⟨os, hos, h1⟩ := h1
    rw [← h1, List.mem_filterMap] at hst
    obtain ⟨o, ho, rfl⟩ := hst
    obtain ⟨c, _, hc⟩ := mapM_mem hos _ ho
    obtain ⟨h2, h3, _⟩ := nextStep_some hc
    unfold StepAt
    rw [h3]
    exact h2

theorem OnceInv.round {env : TreeEnv} {t : StackTree} {opts : MatchOpts} {s s' : TreeState}
    (ht : ((t.arena.nodes.map Prod.fst).flatMap StackNode.children ++ t.root.children).Nodup)
    (hi : OnceInv t s) {taken : List Step} {keys : List FetchKey} {results : List Fetched}
    {expanded : List (List Context × List Step)}
    (hr : Round env t opts s s' taken keys results expanded) : OnceInv t s' := by
  have hnd := hi.all_nodup ht
  have hmem : ∀ st ∈ taken, StepAt t st := fun st hst =>
    hi.at_ st (hr.steps.mem_iff.2 (by simp [hst]))
  have hleft : ∀ st ∈ s'.left, StepAt t st := fun st hst =>
    hi.at_ st (hr.steps.mem_iff.2 (by simp [hst]))
  refine ⟨?_, ?_, ?_, ?_⟩
  · intro st hst
    rcases List.mem_append.1 (hr.next.mem_iff.1 hst) with hst | hst
    · exact expanded_stepAt hr.grown st hst
    · exact hleft st hst
  · rw [hr.visited, List.flatMap_append]
    -- the new indexes are children of what was taken
    have h1 : ((expanded.flatMap Prod.snd).map (·.ix)).Subperm
        ((taken.map (·.ix)).flatMap (childrenAt t)) := by
      refine (expanded_ix hr.grown).subperm.trans ?_
      have h2 : (taken.map (·.ix)).flatMap (childrenAt t) =
          taken.flatMap fun st => st.node.children := by
        rw [List.flatMap_map, List.flatMap_def, List.flatMap_def]
        congr 1
        exact List.map_congr_left fun st hst => (hmem st hst).children
      rw [h2]
      exact (List.filter_sublist.flatMap _).subperm
    have h3 : (s.visited ++ taken.map (·.ix) ++ s'.left.map (·.ix)).Subperm
        (s.visited ++ s.steps.map (·.ix)) := by
      rw [List.append_assoc]
      refine List.Subperm.append (List.Subperm.refl _) ?_
      have h4 := (hr.steps.map (·.ix)).symm.subperm
      rw [List.map_append, List.map_append] at h4
      refine List.Subperm.trans ?_ h4
      exact List.Subperm.append (List.Subperm.refl _) (List.sublist_append_right _ _).subperm
    have h5 := (h3.trans hi.sub).append h1
    rw [List.append_assoc t.root.children] at h5
    refine List.Subperm.trans ?_ h5
    have h6 := (hr.next.map (·.ix))
    rw [List.map_append] at h6
    refine List.Perm.subperm ?_
    refine ((h6.trans List.perm_append_comm).append_left _).trans ?_
    rw [← List.append_assoc]
  · rw [hr.visited]
    have h1 := hnd.perm ((hr.steps.map (·.ix)).append_left s.visited)
    rw [List.map_append, ← List.append_assoc] at h1
    exact (List.nodup_append.1 h1).1
  · intro i hii
    rw [hr.visited] at hii
    rcases List.mem_append.1 hii with hii | hii
    · exact hi.bound i hii
    · obtain ⟨st, hst, rfl⟩ := List.mem_map.1 hii
      exact (hmem st hst).lt

theorem firstSteps_some {env : TreeEnv} {t : StackTree} {opts : MatchOpts} {ss : List Step}
    (h : firstSteps env t opts = some ss) :
    (ss.map (·.ix)).Sublist t.root.children ∧
    ∀ s ∈ ss, StepAt t s ∧ s.ix ∈ t.root.children ∧ s.node.pm = some s.q ∧ s.prev = none ∧
      s.prevZoom = 0 ∧ env.adjust opts s.q.store.zoom = some s.opts := by
  unfold firstSteps at h
  rw [Option.map_eq_some_iff] at h
  obtain ⟨os, hos, rfl⟩ := h
  have key : ∀ (c : ℕ) (s : Step), (match t.arena.get c with
      | none => some none
      | some node => node.pm.bind fun q =>
          (newStep env.toEnv opts c node q none 0 q.weight).map some) = some (some s) →
      s.ix = c ∧ t.arena.get c = some s.node ∧ s.node.pm = some s.q ∧ s.prev = none ∧
        s.prevZoom = 0 ∧ env.adjust opts s.q.store.zoom = some s.opts := by
    intro c s hs
    cases hg : t.arena.get c with
    | none => rw [hg] at hs; cases hs
    | some node =>
      rw [hg] at hs
      simp only [Option.bind_eq_some_iff, Option.map_eq_some_iff] at hs
      obtain ⟨q, hq, s', hs', h⟩ := hs
      cases h
      obtain ⟨h1, h2, h3, h4, h5, h6, _⟩ := newStep_some hs'
      rw [h2, h3]
      exact ⟨h1, rfl, hq, h4, h5, h6⟩
  refine ⟨?_, ?_⟩
  · have := filterMap_sublist (g := id) hos (fun a s hs => (key a s hs).1)
    rwa [List.map_id] at this
  · intro s hs
    obtain ⟨o, ho, rfl⟩ := List.mem_filterMap.1 hs
    obtain ⟨c, hc, hcs⟩ := mapM_mem hos _ ho
    obtain ⟨h1, h2, h3⟩ := key c s hcs
    refine ⟨?_, ?_, h3⟩
    · unfold StepAt; rw [h1]; exact h2
    · rw [h1]; exact hc

theorem treeInit_some {env : TreeEnv} {t : StackTree} {opts : MatchOpts} {s : TreeState}
    (h : treeInit env t opts = some s) : ∃ ss, firstSteps env t opts = some ss ∧
      s.steps.Perm ss ∧ s.contexts = [] ∧ s.cache = [] ∧ s.counts = ⟨0, 0, 0, 0, 0⟩ ∧
      s.fetched = [] ∧ s.visited = [] ∧ s.stopped = none := by
  unfold treeInit at h
  split_ifs at h
  rw [Option.map_eq_some_iff] at h
  obtain ⟨ss, hss, rfl⟩ := h
  refine ⟨ss, hss, ?_, rfl, rfl, rfl, rfl, rfl, rfl⟩
  simpa using pushAll_perm env.steps ss []

theorem treeInit_once {env : TreeEnv} {t : StackTree} {opts : MatchOpts} {s : TreeState}
    (h : treeInit env t opts = some s) : OnceInv t s := by
  obtain ⟨ss, hss, hp, _, _, _, _, hv, _⟩ := treeInit_some h
  obtain ⟨h1, h2⟩ := firstSteps_some hss
  refine ⟨fun st hst => (h2 st (hp.mem_iff.1 hst)).1, ?_, by rw [hv]; exact List.nodup_nil,
    by rw [hv]; simp⟩
  rw [hv, List.nil_append, List.flatMap_nil, List.append_nil]
  exact (hp.map _).subperm.trans h1.subperm

/-- Induction over the rounds of the loop. -/
theorem treeLoop_induct {env : TreeEnv} {t : StackTree} {opts : MatchOpts}
    {P : TreeState → Prop}
    (hstep : ∀ s s' taken keys results expanded, P s → s.finished = false →
      Round env t opts s s' taken keys results expanded → P s') (n : ℕ) {s s' : TreeState}
    (hs : P s) (h : treeLoop env t opts n s = some s') : P s' := by
  induction n generalizing s with
  | zero => cases h; exact hs
  | succ n ih =>
    unfold treeLoop at h
    by_cases hf : s.finished = true
    · rw [if_pos hf] at h
      cases h
      exact hs
    · rw [if_neg hf, Option.bind_eq_some_iff] at h
      obtain ⟨s1, h1, h2⟩ := h
      obtain ⟨taken, keys, results, expanded, hr⟩ := treeRound_round h1
      exact ih (hstep s s1 taken keys results expanded hs (by simpa using hf) hr) h2

theorem treeLoop_finished {env : TreeEnv} {t : StackTree} {opts : MatchOpts}
    (ht : ((t.arena.nodes.map Prod.fst).flatMap StackNode.children ++ t.root.children).Nodup)
    (n : ℕ) {s s' : TreeState} (hi : OnceInv t s)
    (hn : t.arena.nodes.length ≤ s.visited.length + n)
    (h : treeLoop env t opts n s = some s') : s'.finished = true := by
  induction n generalizing s with
  | zero =>
    have h0 : s = s' := Option.some.inj h
    subst h0
    have hnd := hi.all_nodup ht
    have hsub : (s.visited ++ s.steps.map (·.ix)).Subperm (List.range t.arena.nodes.length) := by
      refine hnd.subperm ?_
      intro i hii
      rw [List.mem_range]
      rcases List.mem_append.1 hii with hii | hii
      · exact hi.bound i hii
      · obtain ⟨st, hst, rfl⟩ := List.mem_map.1 hii
        exact (hi.at_ st hst).lt
    have hlen := hsub.length_le
    rw [List.length_append, List.length_map, List.length_range] at hlen
    have h0 : s.steps = [] := List.length_eq_zero_iff.1 (by omega)
    unfold TreeState.finished
    rw [h0]
    rfl
  | succ n ih =>
    unfold treeLoop at h
    by_cases hf : s.finished = true
    · rw [if_pos hf] at h
      cases h
      exact hf
    · rw [if_neg hf, Option.bind_eq_some_iff] at h
      obtain ⟨s1, h1, h2⟩ := h
      obtain ⟨taken, keys, results, expanded, hr⟩ := treeRound_round h1
      have hne : s.steps ≠ [] := by
        intro h0
        apply hf
        unfold TreeState.finished
        rw [h0]
        rfl
      rcases hr.progress hne with hp | hp
      · refine ih (hi.round ht hr) ?_ h2
        rw [hr.visited, List.length_append, List.length_map]
        have := List.length_pos_iff.2 hp
        omega
      · have hfin : s1.finished = true := by
          unfold TreeState.finished
          rw [hp, Bool.or_true]
        cases n with
        | zero => cases h2; exact hfin
        | succ n =>
          unfold treeLoop at h2
          rw [if_pos hfin] at h2
          cases h2
          exact hfin

theorem treeLoop_more {env : TreeEnv} {t : StackTree} {opts : MatchOpts} (n k : ℕ)
    {s s' : TreeState} (h : treeLoop env t opts n s = some s') (hf : s'.finished = true) :
    treeLoop env t opts (n + k) s = some s' := by
  induction n generalizing s with
  | zero =>
    cases h
    cases k with
    | zero => rfl
    | succ k =>
      rw [Nat.zero_add]
      unfold treeLoop
      rw [if_pos hf]
  | succ n ih =>
    rw [Nat.succ_add]
    unfold treeLoop at h ⊢
    by_cases hs : s.finished = true
    · rw [if_pos hs] at h ⊢
      exact h
    · rw [if_neg hs, Option.bind_eq_some_iff] at h
      obtain ⟨s1, h1, h2⟩ := h
      rw [if_neg hs, h1]
      exact ih h2

end Carmen
