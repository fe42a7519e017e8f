import Verif.Lemmas.TreeComplete

/-!
# Why `tree_coalesce` does not lose phrase matches that stand alone
-/

namespace Carmen
open Spec

/-- No two match keys have the same id. -/
def OneOwner (pms : List Subquery) : Prop :=
  ∀ q₁ ∈ pms, ∀ q₂ ∈ pms, ∀ k₁ ∈ q₁.matchKeys, ∀ k₂ ∈ q₂.matchKeys, k₁.id = k₂.id →
    q₁ = q₂ ∧ k₁ = k₂

/-- What coalescing this match key on its own gives is among the contexts, as far as it is not
pushed out. -/
def Handed (env : TreeEnv) (opts : MatchOpts) (q : Subquery) (kg : KeyWithId)
    (cs : List Context) : Prop :=
  ∃ o grids all, lookupOpts env.toEnv opts q kg = some o ∧
    env.query q.store kg.key o 80 = some grids ∧
    treeSingle env.toEnv q o grids kg.id = some all ∧
    ∀ (part : List Context) k, part.Subperm (cpqPushAll env.contexts maxContexts [] all) →
      (∀ r ∈ part, k ≤ r.sortKey) → part.Subperm cs ∨ Outdone k cs

theorem Handed.round {env : TreeEnv} {t : StackTree} {opts : MatchOpts} {q : Subquery}
    {kg : KeyWithId} {s s' : TreeState} {taken : List Step} {keys : List FetchKey}
    {results : List Fetched} {expanded : List (List Context × List Step)}
    (hh : Handed env opts q kg s.contexts)
    (h : Round env t opts s s' taken keys results expanded) : Handed env opts q kg s'.contexts := by
  obtain ⟨o, grids, all, h1, h2, h3, h4⟩ := hh
  obtain ⟨all', hkept, hold, _⟩ := h.kept
  refine ⟨o, grids, all, h1, h2, h3, fun part k hp hk => ?_⟩
  rcases h4 part k hp hk with hs | hs
  · exact hkept.subperm (hs.trans hold) hk
  · exact Or.inr (hs.round h)

/-- The scan for the match key is given up. -/
def AloneDropped (q : Subquery) (kg : KeyWithId) (cs : List Context) : Prop :=
  SlowScan (q, kg) ∧ (q.weight.IsFin → q.weight.Valid → 0 < q.weight →
    ∃ b ∈ cs, q.weight ≤ lit 0.75 * b.relev)

theorem AloneDropped.mono {q : Subquery} {kg : KeyWithId} {cs cs' : List Context}
    (h : AloneDropped q kg cs) (hs : cs.Subperm cs') : AloneDropped q kg cs' := by
  refine ⟨h.1, fun h1 h2 h3 => ?_⟩
  obtain ⟨b, hb, h4⟩ := h.2 h1 h2 h3
  exact ⟨b, hs.subset hb, h4⟩

theorem AloneDropped.round {env : TreeEnv} {t : StackTree} {opts : MatchOpts} {q : Subquery}
    {kg : KeyWithId} {s s' : TreeState} {taken : List Step} {keys : List FetchKey}
    {results : List Fetched} {expanded : List (List Context × List Step)}
    (hd : AloneDropped q kg s.contexts)
    (h : Round env t opts s s' taken keys results expanded) : AloneDropped q kg s'.contexts :=
  ⟨hd.1, fun h1 h2 h3 => three_quarters_round h (hd.2 h1 h2 h3)⟩

theorem alone_round {env : TreeEnv} {t : StackTree} {opts : MatchOpts} {pms : List Subquery}
    {node : StackNode} {q : Subquery} {kg : KeyWithId} {s s' : TreeState}
    (hi : (Handed env opts q kg s.contexts ∨ AloneDropped q kg s.contexts) ∨
      ∃ st ∈ s.steps, st.node = node ∧ st.q = q ∧ st.prev = none) {taken : List Step}
    {keys : List FetchKey} {results : List Fetched} {expanded : List (List Context × List Step)}
    (h : Round env t opts s s' taken keys results expanded)
    (hgen : GenuineInv env t opts pms s)
    (hpms : ∀ st ∈ s.steps, st.q ∈ pms)
    (hone : OneOwner pms) (hqm : q ∈ pms) (hkm : kg ∈ q.matchKeys) (hch : node.children = [])
    (hposs : ∀ st ∈ s.steps, NotesPossible st)
    (hroom : RoomToTryFor (scansOf t) (q, kg))
    (hqueued : ∀ st ∈ taken, st.isSingle = true → ∀ kg ∈ st.q.matchKeys,
      RoomToTryFor (scansOf t) (st.q, kg) →
      KeyQueued keys kg.id ∨ Skipped env s.contexts st kg) :
    (Handed env opts q kg s'.contexts ∨ AloneDropped q kg s'.contexts) ∨
      ∃ st, s'.Undone st ∧ st.node = node ∧ st.q = q ∧ st.prev = none := by
  obtain ⟨all', hkept, hold, _, hnew⟩ := h.kept
  rcases hi with (hi | hi) | ⟨st, hst, rfl, rfl, hprev⟩
  · exact Or.inl (Or.inl (hi.round h))
  · exact Or.inl (Or.inr (hi.round h))
  · have hmem := List.mem_append.1 (h.steps.mem_iff.1 hst)
    rcases hmem with hmem | hmem
    · left
      have hs1 : st.isSingle = true := by
        unfold Step.isSingle
        rw [hprev, hch]
        rfl
      rcases hqueued st hmem hs1 kg hkm hroom with hqd | hsk
      swap
      · refine Or.inr ⟨hsk.slow, fun w1 w2 w3 => ?_⟩
        obtain ⟨b, hb, hbd⟩ := skipped_bound hsk (hposs st hst) w1 w2 w3
        rw [(hposs st hst).1 hprev] at hbd
        exact three_quarters_round h ⟨b, hb, hbd⟩
      left
      obtain ⟨k, hk, hkid, hks⟩ := hqd
      obtain ⟨st', hst', hof⟩ := h.of_keys k hk
      have hst's : st' ∈ s.steps := h.steps.mem_iff.2 (by simp [hst'])
      obtain ⟨he1, he2⟩ := hone _ (hpms st' hst's) _ hqm k.kg hof.kg kg hkm hkid
      obtain ⟨above, hfrom⟩ := hgen.steps st' hst's
      obtain ⟨r, hr, hre⟩ := mapM_mem_left h.got k hk
      unfold fetchKey at hre
      rw [if_pos hks] at hre
      simp only [Option.bind_eq_bind, Option.bind_eq_some_iff] at hre
      obtain ⟨grids, hgr, all, hall, hre⟩ := hre
      cases hre
      have hlook := keyOpts_lookup hfrom.opts_eq hof.opts
      rw [hof.q, he1, he2] at hgr hall
      rw [he1, he2] at hlook
      exact ⟨k.opts, grids, all, hlook, hgr, hall, fun part k hp hk =>
        hkept.subperm (hp.trans (hnew _ hr)) hk⟩
    · exact Or.inr ⟨st, hmem, rfl, rfl, hprev⟩

theorem treeInit_alone {env : TreeEnv} {t : StackTree} {opts : MatchOpts} {node : StackNode}
    {q : Subquery} (hp : TreePath t t.root [node]) (hq : node.pm = some q)
    {s : TreeState} (h : treeInit env t opts = some s) :
    ∃ st ∈ s.steps, st.node = node ∧ st.q = q ∧ st.prev = none := by
  obtain ⟨ss, hss, hperm, h1, h2, h3, h4, h5, h6⟩ := treeInit_some h
  obtain ⟨c, hc, hget⟩ := hp.1
  have hss' := hss
  unfold firstSteps at hss
  rw [Option.map_eq_some_iff] at hss
  obtain ⟨os, hos, rfl⟩ := hss
  obtain ⟨o, ho, hco⟩ := mapM_mem_left hos c hc
  rw [hget] at hco
  simp only [Option.bind_eq_some_iff, Option.map_eq_some_iff] at hco
  obtain ⟨q', hq', st, hst, rfl⟩ := hco
  rw [hq] at hq'
  cases hq'
  obtain ⟨n1, n2, n3, n4, n5, n6, _⟩ := newStep_some hst
  exact ⟨st, hperm.mem_iff.2 (List.mem_filterMap.2 ⟨some st, ho, rfl⟩), n2, n3, n4⟩

/-- All invariants together. -/
structure AloneRun (env : TreeEnv) (t : StackTree) (opts : MatchOpts) (pms : List Subquery)
    (node : StackNode) (q : Subquery) (kg : KeyWithId) (s : TreeState) : Prop where
  once : OnceInv t s
  genuine : GenuineInv env t opts pms s
  serve : ServeInv env t s
  possible : ∀ st ∈ s.steps, NotesPossible st
  stop : StopInfo s
  going : s.stopped = none → (Handed env opts q kg s.contexts ∨ AloneDropped q kg s.contexts) ∨
    ∃ st ∈ s.steps, st.node = node ∧ st.q = q ∧ st.prev = none
  ended : s.stopped.isSome = true →
    (Handed env opts q kg s.contexts ∨ AloneDropped q kg s.contexts) ∨
      ∃ st, s.Undone st ∧ st.node = node ∧ st.q = q ∧ st.prev = none

theorem treeLoop_alone {env : TreeEnv} {t : StackTree} {opts : MatchOpts} {pms : List Subquery}
    (hr : RunOk env t opts pms)
    (ht : ((t.arena.nodes.map Prod.fst).flatMap StackNode.children ++ t.root.children).Nodup)
    (hone : OneOwner pms) {node : StackNode} {q : Subquery}
    {kg : KeyWithId} (hroom : RoomToTryFor (scansOf t) (q, kg)) (hp : TreePath t t.root [node]) (hq : node.pm = some q)
    (hch : node.children = []) (hqm : q ∈ pms) (hkm : kg ∈ q.matchKeys)
    {s₀ s : TreeState} (h0 : treeInit env t opts = some s₀)
    (h : treeLoop env t opts t.arena.nodes.length s₀ = some s) :
    (Handed env opts q kg s.contexts ∨ AloneDropped q kg s.contexts) ∨
      (maxResults ≤ s.contexts.length ∧ ∀ r ∈ s.contexts, node.maxRelev ≤ r.relev) := by
  obtain ⟨ss, hss, hperm, h1, h2, h3, h4, h5, h6⟩ := treeInit_some h0
  have hinit : AloneRun env t opts pms node q kg s₀ := by
    refine ⟨treeInit_once h0, treeInit_genuine h0, ?_, treeInit_possible h0, ?_,
      fun _ => Or.inr (treeInit_alone hp hq h0), ?_⟩
    · unfold ServeInv
      rw [h3]
      exact ⟨Nat.zero_le _, Nat.zero_le _, Nat.zero_le _, Nat.zero_le _, Nat.zero_le _⟩
    · intro st hst
      rw [h6] at hst
      cases hst
    · intro hst
      rw [h6] at hst
      cases hst
  have hfin := treeLoop_finished ht _ (treeInit_once h0) (by omega) h
  have hend := treeLoop_induct (P := AloneRun env t opts pms node q kg) (by
    intro s s' taken keys results expanded hi hnf hround
    have hrun : s.stopped = none := by
      unfold TreeState.finished at hnf
      rw [Bool.or_eq_false_iff] at hnf
      exact Option.not_isSome_iff_eq_none.1 (by simp [hnf.2])
    obtain ⟨v1, _, v2⟩ := round_served ht hi.once hi.genuine hi.serve hround
    have hnext := alone_round (hi.going hrun) hround hi.genuine (by
      intro st hst
      obtain ⟨above, hfrom⟩ := hi.genuine.steps st hst
      exact (path_pms hr hfrom.path).1 st.node (by simp) _ hfrom.pm) hone hqm hkm hch hi.possible hroom v2
    refine ⟨hi.once.round ht hround, hi.genuine.round hr hround, v1,
      hround.possible hi.possible, hround.stopInfo, fun hns => ?_, fun _ => hnext⟩
    refine hnext.imp id ?_
    rintro ⟨st, hu, hx⟩
    unfold TreeState.Undone at hu
    rw [hns, Option.toList_none, List.nil_append] at hu
    exact ⟨st, hround.next.mem_iff.2 (List.mem_append_right _ hu), hx⟩)
    _ hinit h
  cases hst : s.stopped with
  | none =>
    left
    refine (hend.going hst).resolve_right ?_
    rintro ⟨st, hmem, _⟩
    unfold TreeState.finished at hfin
    rw [hst] at hfin
    simp only [Option.isSome_none, Bool.or_false, List.isEmpty_iff] at hfin
    rw [hfin] at hmem
    cases hmem
  | some st =>
    obtain ⟨hlen, hbound⟩ := hend.stop st hst
    refine (hend.ended (by rw [hst]; rfl)).imp id ?_
    rintro ⟨st', hu, rfl, _⟩
    refine ⟨hlen, hbound st' ?_⟩
    unfold TreeState.Undone at hu
    rw [hst] at hu
    simpa using hu

end Carmen
