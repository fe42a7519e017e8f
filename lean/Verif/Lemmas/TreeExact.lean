import Verif.Lemmas.TreeAlone
import Verif.Spec.Exact

/-!
# Where every context of `tree_coalesce` comes from
-/

namespace Carmen
open Spec

/-- One of the contexts made for a node on its own. -/
def LoneMade (env : TreeEnv) (t : StackTree) (opts : MatchOpts) (c : Context) : Prop :=
  ∃ node q kg o grids all, TreePath t t.root [node] ∧ node.pm = some q ∧ node.children = [] ∧
    kg ∈ q.matchKeys ∧ lookupOpts env.toEnv opts q kg = some o ∧
    env.query q.store kg.key o 80 = some grids ∧
    treeSingle env.toEnv q o grids kg.id = some all ∧ c ∈ all

/-- Where a context comes from. -/
def Sourced (env : TreeEnv) (t : StackTree) (opts : MatchOpts) (c : Context) : Prop :=
  (∃ ls, ¬ Alone ls ∧ StackedFrom env.toEnv t opts ls c) ∨ LoneMade env t opts c

theorem fetchKey_sourced {env : TreeEnv} {t : StackTree} {opts : MatchOpts} {s : Step}
    (hs : StepOk env t opts s) {k : FetchKey}
    (hk : KeyOf env.chk s k) {cs : List Context} (h : fetchKey env k = some (.single cs)) :
    ∀ c ∈ cs, LoneMade env t opts c := by
  obtain ⟨above, hs⟩ := hs
  have hlook : lookupOpts env.toEnv opts k.q k.kg = some k.opts := by
    rw [hk.q]
    exact keyOpts_lookup (env := env.toEnv) hs.opts_eq hk.opts
  have hkg : k.kg ∈ k.q.matchKeys := by rw [hk.q]; exact hk.kg
  unfold fetchKey at h
  by_cases hsing : k.single = true
  · rw [if_pos hsing] at h
    simp only [Option.bind_eq_bind, Option.bind_eq_some_iff] at h
    obtain ⟨grids, hgr, all, hall, h⟩ := h
    cases h
    have hsi : s.isSingle = true := hk.single ▸ hsing
    unfold Step.isSingle at hsi
    simp only [Bool.and_eq_true, Option.isNone_iff_eq_none, beq_iff_eq] at hsi
    have hpath := hs.path
    rw [hs.first hsi.1, List.nil_append] at hpath
    intro c hc
    rcases mem_cpqPushAll _ hc with hc | hc
    · exact ⟨s.node, k.q, k.kg, k.opts, grids, all, hpath, by rw [hk.q]; exact hs.pm,
        List.length_eq_zero_iff.1 hsi.2, hkg, hlook, hgr, hall, hc⟩
    · cases hc
  · rw [if_neg hsing] at h
    simp only [Option.bind_eq_bind, Option.bind_eq_some_iff] at h
    obtain ⟨grids, hgr, h⟩ := h
    cases h

theorem mem_absorb {env : TreeEnv} {rs : List Fetched}
    {p : List Context × HMap ℕ (List MatchEntry)} {c : Context}
    (h : c ∈ (rs.foldl (absorbFetched env) p).1) :
    c ∈ p.1 ∨ ∃ cs, .single cs ∈ rs ∧ c ∈ cs := by
  induction rs generalizing p with
  | nil => exact Or.inl h
  | cons r rs ih =>
    rw [List.foldl_cons] at h
    rcases ih h with h | ⟨cs, h1, h2⟩
    · cases r with
      | multi id data => exact Or.inl h
      | single cs =>
        rcases mem_cpqPushAll _ h with h | h
        · exact Or.inr ⟨cs, by simp, h⟩
        · exact Or.inl h
    · exact Or.inr ⟨cs, List.mem_cons_of_mem _ h1, h2⟩

theorem Round.sourced {env : TreeEnv} {t : StackTree} {opts : MatchOpts} {pms : List Subquery}
    (hr : RunOk env t opts pms) {s s' : TreeState} (hi : GenuineInv env t opts pms s)
    (hso : ∀ c ∈ s.contexts, Sourced env t opts c)
    {taken : List Step} {keys : List FetchKey} {results : List Fetched}
    {expanded : List (List Context × List Step)}
    (h : Round env t opts s s' taken keys results expanded) :
    ∀ c ∈ s'.contexts, Sourced env t opts c := by
  have htaken : ∀ st ∈ taken, StepOk env t opts st := fun st hst =>
    hi.steps st (h.steps.mem_iff.2 (by simp [hst]))
  have hcache := (hi.round hr h).cache
  intro c hc
  rw [h.contexts] at hc
  rcases mem_cpqPushAll _ hc with hc | hc
  · obtain ⟨r, hrr, hc⟩ := List.mem_flatMap.1 hc
    obtain ⟨st, hst, hre⟩ := mapM_mem h.grown r hrr
    rw [List.mem_filter] at hst
    obtain ⟨above, hfrom⟩ := htaken st hst.1
    obtain ⟨scale, groups, e1, e2, e3, e4⟩ := expandStep_some hre
    rw [e4] at hc
    obtain ⟨g, hg, hc⟩ := List.mem_flatMap.1 hc
    rcases mem_cpqPushAll _ hc with hc | hc
    · obtain ⟨c0, hc0, rfl⟩ := List.mem_map.1 hc
      obtain ⟨kg, hkg, hge⟩ := mapM_mem e2 g hg
      obtain ⟨ls, l, hb, hn, hq, _⟩ := expandKey_built hr hcache hfrom e1 hkg hge c0 hc0
      have hne : ls = [] → l.node.children ≠ [] := by
        intro hls
        subst hls
        have hlen := congrArg List.length hn
        simp only [List.nil_append, List.map_cons, List.map_nil, List.length_append,
          List.length_cons, List.length_nil] at hlen
        have hab : above = [] := List.length_eq_zero_iff.1 (by omega)
        rw [hab] at hn
        simp only [List.nil_append, List.map_cons, List.map_nil, List.cons.injEq, and_true] at hn
        have hsi := hst.2
        unfold Step.isSingle at hsi
        have hpn : st.prev = none := by
          cases hp : st.prev with
          | none => rfl
          | some prev => exact absurd hab (hfrom.prev prev hp).1
        rw [hpn] at hsi
        rw [hn]
        intro hcn
        rw [hcn] at hsi
        simp at hsi
      exact Or.inl ⟨_, (penalize_fields hb.entries hne).2.2.1, hb.penalize hne⟩
    · cases hc
  · rcases mem_absorb hc with hc | ⟨cs, h1, h2⟩
    · exact hso c hc
    · obtain ⟨k, hk, hkr⟩ := mapM_mem h.got _ h1
      obtain ⟨st, hst, hks⟩ := h.of_keys k hk
      exact Or.inr (fetchKey_sourced (htaken st hst) hks hkr c h2)

theorem treeLoop_sourced {env : TreeEnv} {t : StackTree} {opts : MatchOpts} {pms : List Subquery}
    (hr : RunOk env t opts pms) {s₀ s : TreeState} {n : ℕ} (h0 : treeInit env t opts = some s₀)
    (h : treeLoop env t opts n s₀ = some s) : ∀ c ∈ s.contexts, Sourced env t opts c := by
  obtain ⟨_, _, _, hnil, _⟩ := treeInit_some h0
  exact (treeLoop_induct (P := fun s => GenuineInv env t opts pms s ∧
    ∀ c ∈ s.contexts, Sourced env t opts c)
    (fun _ _ _ _ _ _ hs _ hround => ⟨hs.1.round hr hround, hround.sourced hr hs.1 hs.2⟩) _
    ⟨treeInit_genuine h0, by rw [hnil]; simp⟩ h).2

end Carmen
