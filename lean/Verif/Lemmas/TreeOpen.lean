import Verif.Lemmas.TreeExact
import Verif.Lemmas.TreeComplete

/-!
# Along which paths `tree_coalesce` goes
-/

namespace Carmen
open Spec

/-- Any scan. -/
abbrev AnyScan : Subquery × KeyWithId → Prop := fun _ => True

/-- A step of the tree along an open path. -/
def StepOpen (env : TreeEnv) (t : StackTree) (opts : MatchOpts) (s : Step) : Prop :=
  ∃ above, StepFrom env t opts above s ∧ PathOpen AnyScan env.toEnv opts (above ++ [s.node])

/-- A path with one more node. -/
theorem PathOpen.concat {P : Subquery × KeyWithId → Prop} {env : Env} {opts : MatchOpts}
    {ns : List StackNode} {n : StackNode} (h : PathOpen P env opts ns)
    (hn : ns ≠ [] → ∀ q, n.pm = some q → ∃ up l, Over P env opts ns (up ++ [l]) ∧
      (l.q.store.zoom ≤ q.store.zoom →
        Meets q.store l.q.store.zoom l.grid.entry.x l.grid.entry.y)) :
    PathOpen P env opts (ns ++ [n]) := by
  intro above m below he hne q hq
  rcases List.eq_nil_or_concat below with rfl | ⟨below, k, rfl⟩
  · obtain ⟨rfl, h2⟩ := List.append_inj' he rfl
    rw [List.singleton_inj.1 h2] at hn
    exact hn hne q hq
  · rw [List.concat_eq_append, ← List.cons_append, ← List.append_assoc] at he
    obtain ⟨rfl, _⟩ := List.append_inj' he rfl
    exact h above m below rfl hne q hq

theorem PathOpen.short {P : Subquery × KeyWithId → Prop} {env : Env} {opts : MatchOpts}
    {n : StackNode} : PathOpen P env opts [n] :=
  PathOpen.concat (ns := []) (fun above m below he => by simp at he) fun h => absurd rfl h

/-- The next steps are along open paths. -/
theorem nextSteps_open {env : TreeEnv} {t : StackTree} {opts : MatchOpts} {pms : List Subquery}
    (hr : RunOk env t opts pms) {above : List StackNode}
    {s : Step} (hs : StepFrom env t opts above s)
    (ho : PathOpen AnyScan env.toEnv opts (above ++ [s.node])) {groups : List (List Context)}
    (hg : ∀ g ∈ groups, ∀ c ∈ g, ∃ ls l, TreeBuilt env t opts (ls ++ [l]) c ∧
      (ls ++ [l]).map Level.node = above ++ [s.node] ∧ l.q = s.q) {ss : List Step}
    (h : nextSteps env t opts s groups = some ss) : ∀ s' ∈ ss, StepOpen env t opts s' := by
  intro s' hs'
  have hfrom := nextSteps_ok hs hg h s' hs'
  refine ⟨_, hfrom, ho.concat fun _ q hq => ?_⟩
  have hq' : q = s'.q := by
    have := hfrom.pm
    rw [hq] at this
    exact Option.some.inj this
  subst hq'
  unfold nextSteps at h
  split_ifs at h with h0
  · rw [← Option.some.inj h] at hs'
    cases hs'
  · rw [Option.map_eq_some_iff] at h
    obtain ⟨os, hos, rfl⟩ := h
    obtain ⟨o, ho', rfl⟩ := List.mem_filterMap.1 hs'
    obtain ⟨c, hc, hcs⟩ := mapM_mem hos _ ho'
    unfold nextStep at hcs
    cases hget : t.arena.get c with
    | none => rw [hget] at hcs; cases hcs
    | some child =>
      rw [hget] at hcs
      simp only [Option.bind_eq_bind, Option.bind_eq_some_iff] at hcs
      obtain ⟨q, hq2, boxes, hboxes, hcs⟩ := hcs
      split_ifs at hcs with hany
      swap
      · simp at hcs
      rw [Option.map_eq_some_iff] at hcs
      obtain ⟨st', hst', he⟩ := hcs
      cases he
      obtain ⟨n1, n2, n3, n4, n5, n6, _⟩ := newStep_some hst'
      subst n3
      by_cases hz : s.q.store.zoom ≤ s'.q.store.zoom
      · have hz16 : env.chk = true ∨ s'.q.store.zoom < s.q.store.zoom + 16 := by
          rcases hr.zooms with hh | hh
          · exact Or.inl hh
          · right
            obtain ⟨p1, _, p3⟩ := path_pms hr hfrom.path
            have m1 := p1 s.node (by simp) s.q hs.pm
            have m2 := p1 s'.node (by simp) s'.q hfrom.pm
            rw [List.append_assoc] at p3
            have p4 := (List.isChain_append.1 p3).2.1
            simp only [List.singleton_append, List.isChain_cons_cons] at p4
            exact (hh s.q m1 s'.q m2 (p4.1 _ _ hs.pm hfrom.pm)).2
        obtain ⟨c', hc', hm⟩ := (anyInside_iff hboxes hz hz16).1 hany
        obtain ⟨g, hgm, hcg⟩ := stateContexts_subset hc'
        obtain ⟨ls, l, hb, hn, hlq⟩ := hg g hgm c' hcg
        refine ⟨ls, l, ⟨hn, hb.answers, fun _ _ => trivial, hb.tiles⟩, fun _ => ?_⟩
        rw [hb.first.1, hb.first.2] at hm
        rw [hlq]
        exact hm
      · have hne : stateContexts s groups ≠ [] := h0
        obtain ⟨c', hc'⟩ := List.exists_mem_of_ne_nil _ hne
        obtain ⟨g, hgm, hcg⟩ := stateContexts_subset hc'
        obtain ⟨ls, l, hb, hn, hlq⟩ := hg g hgm c' hcg
        refine ⟨ls, l, ⟨hn, hb.answers, fun _ _ => trivial, hb.tiles⟩, fun hle => ?_⟩
        rw [hlq] at hle
        exact absurd hle hz

/-- Where a context comes from, and that the path to it is open. -/
def SourcedOpen (env : TreeEnv) (t : StackTree) (opts : MatchOpts) (c : Context) : Prop :=
  (∃ ls, ¬ Alone ls ∧ PathOpen AnyScan env.toEnv opts (ls.map Level.node) ∧
    StackedFrom env.toEnv t opts ls c) ∨ LoneMade env t opts c

theorem Round.opens {env : TreeEnv} {t : StackTree} {opts : MatchOpts} {pms : List Subquery}
    (hr : RunOk env t opts pms) {s s' : TreeState} (hi : GenuineInv env t opts pms s)
    (hop : ∀ st ∈ s.steps, StepOpen env t opts st)
    (hso : ∀ c ∈ s.contexts, SourcedOpen env t opts c)
    {taken : List Step} {keys : List FetchKey} {results : List Fetched}
    {expanded : List (List Context × List Step)}
    (h : Round env t opts s s' taken keys results expanded) :
    (∀ st ∈ s'.steps, StepOpen env t opts st) ∧ ∀ c ∈ s'.contexts, SourcedOpen env t opts c := by
  have htaken : ∀ st ∈ taken, StepOpen env t opts st := fun st hst =>
    hop st (h.steps.mem_iff.2 (by simp [hst]))
  have hcache := (hi.round hr h).cache
  have hexp : ∀ r ∈ expanded, (∀ c ∈ r.1, SourcedOpen env t opts c) ∧
      ∀ st ∈ r.2, StepOpen env t opts st := by
    intro r hrr
    obtain ⟨st, hst, hre⟩ := mapM_mem h.grown r hrr
    rw [List.mem_filter] at hst
    obtain ⟨above, hfrom, hopen⟩ := htaken st hst.1
    obtain ⟨scale, groups, e1, e2, e3, e4⟩ := expandStep_some hre
    have hgroups : ∀ g ∈ groups, ∀ c ∈ g, ∃ ls l, TreeBuilt env t opts (ls ++ [l]) c ∧
        (ls ++ [l]).map Level.node = above ++ [st.node] ∧ l.q = st.q := by
      intro g hg
      obtain ⟨kg, hkg, hge⟩ := mapM_mem e2 g hg
      intro c hc
      obtain ⟨ls, l, h1, h2, h3, _⟩ := expandKey_built hr hcache hfrom e1 hkg hge c hc
      exact ⟨ls, l, h1, h2, h3⟩
    refine ⟨?_, nextSteps_open hr hfrom hopen hgroups e3⟩
    intro c hc
    rw [e4] at hc
    obtain ⟨g, hg, hc⟩ := List.mem_flatMap.1 hc
    rcases mem_cpqPushAll _ hc with hc | hc
    · obtain ⟨c0, hc0, rfl⟩ := List.mem_map.1 hc
      obtain ⟨ls, l, hb, hn, hq⟩ := hgroups g hg c0 hc0
      have hne : ls = [] → l.node.children ≠ [] := by
        intro hls
        subst hls
        have hlen := congrArg List.length hn
        simp only [List.nil_append, List.map_cons, List.map_nil, List.length_append,
          List.length_cons, List.length_nil] at hlen
        have hab : above = [] := List.length_eq_zero_iff.1 (by omega)
        rw [hab] at hn
        simp only [List.nil_append, List.map_cons, List.map_nil, List.cons.injEq, and_true] at hn
        have hsi := hst.2
        unfold Step.isSingle at hsi
        have hpn : st.prev = none := by
          cases hp : st.prev with
          | none => rfl
          | some prev => exact absurd hab (hfrom.prev prev hp).1
        rw [hpn] at hsi
        rw [hn]
        intro hcn
        rw [hcn] at hsi
        simp at hsi
      exact Or.inl ⟨_, (penalize_fields hb.entries hne).2.2.1, by rw [hn]; exact hopen,
        hb.penalize hne⟩
    · cases hc
  constructor
  · intro st hst
    rcases List.mem_append.1 (h.next.mem_iff.1 hst) with hst | hst
    · obtain ⟨r, hrr, hst⟩ := List.mem_flatMap.1 hst
      exact (hexp r hrr).2 st hst
    · exact hop st (h.steps.mem_iff.2 (by simp [hst]))
  · intro c hc
    rw [h.contexts] at hc
    rcases mem_cpqPushAll _ hc with hc | hc
    · obtain ⟨r, hrr, hc⟩ := List.mem_flatMap.1 hc
      exact (hexp r hrr).1 c hc
    · rcases mem_absorb hc with hc | ⟨cs, h1, h2⟩
      · exact hso c hc
      · obtain ⟨k, hk, hkr⟩ := mapM_mem h.got _ h1
        obtain ⟨st, hst, hks⟩ := h.of_keys k hk
        obtain ⟨above, hfrom, _⟩ := htaken st hst
        exact Or.inr (fetchKey_sourced ⟨above, hfrom⟩ hks hkr c h2)

theorem treeLoop_open {env : TreeEnv} {t : StackTree} {opts : MatchOpts} {pms : List Subquery}
    (hr : RunOk env t opts pms) {s₀ s : TreeState} {n : ℕ} (h0 : treeInit env t opts = some s₀)
    (h : treeLoop env t opts n s₀ = some s) : ∀ c ∈ s.contexts, SourcedOpen env t opts c := by
  obtain ⟨ss, hss, hp, hnil, _⟩ := treeInit_some h0
  refine (treeLoop_induct (P := fun s => GenuineInv env t opts pms s ∧
    (∀ st ∈ s.steps, StepOpen env t opts st) ∧ ∀ c ∈ s.contexts, SourcedOpen env t opts c)
    (fun _ _ _ _ _ _ hs _ hround => ⟨hs.1.round hr hround, hround.opens hr hs.1 hs.2.1 hs.2.2⟩) _
    ⟨treeInit_genuine h0, ?_, by rw [hnil]; simp⟩ h).2.2
  intro st hst
  obtain ⟨f1, f2, f3, f4, f5, f6⟩ := (firstSteps_some hss).2 st (hp.mem_iff.1 hst)
  refine ⟨[], ⟨⟨⟨st.ix, f2, f1⟩, trivial⟩, f3, f6, fun _ => rfl, ?_⟩, PathOpen.short⟩
  intro prev hpr
  rw [f4] at hpr
  cases hpr

end Carmen
