import Verif.Spec.StepOrder
import Verif.Lemmas.TreeBound

/-!
# The order of work in tree coalesce: proofs
-/

namespace Carmen

/-- The flags of a step are those of its index. -/
def Flagged (env : Env) (opts : MatchOpts) (s : Step) : Prop :=
  s.containsProx = true ↔ Spec.AtPoint env opts s.q.store

theorem containsProx_iff {q : Subquery} {o : MatchOpts} :
    containsProx q o = true ↔ ∃ p, o.proximity = some p ∧ Spec.Covers q.store p := by
  unfold containsProx Spec.Covers
  cases o.proximity with
  | none => simp
  | some p =>
    simp only [List.any_eq_true, decide_eq_true_eq, Option.some.injEq, exists_eq_left', and_assoc]

theorem newStep_flagged {env : Env} {opts : MatchOpts} {ix : ℕ} {node : StackNode} {q : Subquery}
    {prev : Option (List Context)} {prevZoom : ℕ} {possible : F64} {s : Step}
    (h : newStep env opts ix node q prev prevZoom possible = some s) : Flagged env opts s := by
  unfold newStep at h
  simp only [Option.bind_eq_bind, Option.bind_eq_some_iff] at h
  obtain ⟨o, ho, h⟩ := h
  cases h
  unfold Flagged Spec.AtPoint
  rw [containsProx_iff]
  constructor
  · rintro ⟨p, h1, h2⟩
    exact ⟨o, p, ho, h1, h2⟩
  · rintro ⟨o', p, h0, h1, h2⟩
    rw [ho] at h0
    cases h0
    exact ⟨p, h1, h2⟩

theorem key_le_iff {env : Env} {opts : MatchOpts} {a b : Step} (ha : Flagged env opts a)
    (hb : Flagged env opts b) : b.key ≤ a.key ↔ ¬ Spec.Outranks env opts b a := by
  unfold Flagged at ha hb
  rw [← not_lt, not_iff_not]
  unfold Spec.Outranks Step.key
  rw [← ha, ← hb, Prod.Lex.toLex_lt_toLex, Prod.Lex.toLex_lt_toLex]
  simp only
  cases a.containsProx <;> cases b.containsProx <;> simp [eq_comm]

/-- Filling a chunk, with the scans of every step. -/
structure Ordered (env : TreeEnv) (contexts : List Context) (f f' : Fill) 
    (taken : List (Step × List FetchKey)) : Prop where
  steps : f.steps.Perm (taken.map Prod.fst ++ (f'.stopped.toList ++ f'.steps))
  visited : f'.visited = f.visited ++ taken.map (·.1.ix)
  keys : f'.keys = f.keys ++ taken.flatMap Prod.snd
  order : (taken.map Prod.fst ++ f'.stopped.toList).Pairwise fun a b => b.key ≤ a.key
  left : ∀ a ∈ taken.map Prod.fst ++ f'.stopped.toList, ∀ b ∈ f'.steps, b.key ≤ a.key
  added : f'.added = f.added + taken.countP fun p => !p.2.isEmpty || !p.1.isSingle
  bound : f.added ≤ chunkSize → f'.added ≤ chunkSize
  worth : ∀ p ∈ taken, cannotBeat env contexts p.1 = false

/-- The scans queued since a moment, and whether there were any. -/
def Queued (f f' : Fill) : Prop :=
  ∃ new, f'.keys = f.keys ++ new ∧ f'.enqueued = (f.enqueued || !new.isEmpty) ∧
    f'.added = f.added ∧ f'.steps = f.steps ∧ f'.stopped = f.stopped ∧ f'.visited = f.visited

theorem considerKey_queued {env : TreeEnv} {cache : HMap ℕ (List MatchEntry)}
    {contexts : List Context} {step : Step} {single : Bool} {f f' : Fill} {kg : KeyWithId}
    (h : considerKey env cache contexts step single f kg = some f') : Queued f f' := by
  have refl : ∀ c, Queued f { f with counts := c } := fun c =>
    ⟨[], by simp, by simp, rfl, rfl, rfl, rfl⟩
  unfold considerKey at h
  by_cases h1 : (!single && (HMap.find kg.id cache).isSome) = true
  · rw [if_pos h1] at h
    cases h
    exact refl f.counts
  · rw [if_neg h1] at h
    simp only [Option.bind_eq_bind, Option.bind_eq_some_iff] at h
    obtain ⟨o, ho, r, hr, h⟩ := h
    by_cases h2 : (r && oneToken step.q.mask && notWorthIt env contexts step) = true
    · rw [if_pos h2] at h
      cases h
      exact refl f.counts
    · rw [if_neg h2] at h
      split at h
      · cases h
        exact ⟨[_], rfl, by simp, rfl, rfl, rfl, rfl⟩
      · cases h
        exact refl _

theorem considerKeys_queued {env : TreeEnv} {cache : HMap ℕ (List MatchEntry)}
    {contexts : List Context} {step : Step} {single : Bool} {kgs : List KeyWithId} {f f' : Fill}
    (h : kgs.foldlM (considerKey env cache contexts step single) f = some f') : Queued f f' := by
  induction kgs generalizing f with
  | nil => cases h; exact ⟨[], by simp, by simp, rfl, rfl, rfl, rfl⟩
  | cons a t ih =>
    rw [List.foldlM_cons, Option.bind_eq_bind, Option.bind_eq_some_iff] at h
    obtain ⟨g, h1, h2⟩ := h
    obtain ⟨n1, k1, e1, a1, s1, p1, v1⟩ := considerKey_queued h1
    obtain ⟨n2, k2, e2, a2, s2, p2, v2⟩ := ih h2
    refine ⟨n1 ++ n2, by rw [k2, k1, List.append_assoc], ?_, a2.trans a1, s2.trans s1, p2.trans p1,
      v2.trans v1⟩
    rw [e2, e1]
    cases n1 <;> simp

theorem fillChunk_ordered {env : TreeEnv} {cache : HMap ℕ (List MatchEntry)}
    {contexts : List Context} {n : ℕ} {f f' : Fill} (hs : f.stopped = none)
    (hn : f.steps.length ≤ n) (h : fillChunk env cache contexts n f = some f') :
    ∃ taken, Ordered env contexts f f' taken ∧
      (f'.steps = [] ∨ f'.stopped.isSome = true ∨ chunkSize ≤ f'.added) := by
  have stay : Ordered env contexts f f [] := ⟨by simp [hs], by simp, by simp, by simp [hs], by simp [hs],
    by simp, id, by simp⟩
  induction n generalizing f with
  | zero =>
    cases h
    exact ⟨[], stay, Or.inl (List.length_eq_zero_iff.1 (by omega))⟩
  | succ n ih =>
    unfold fillChunk at h
    by_cases h1 : chunkSize ≤ f.added
    · rw [if_pos h1] at h
      cases h
      exact ⟨[], stay, Or.inr (Or.inr h1)⟩
    · rw [if_neg h1] at h
      cases hp : env.steps.peekMax f.steps with
      | none =>
        rw [hp] at h
        cases h
        exact ⟨[], stay, Or.inl ((env.steps.peekMax_none _).1 hp)⟩
      | some step =>
        rw [hp] at h
        simp only at h
        have hperm := env.steps.popMax_perm _ _ hp
        have hmax : ∀ b ∈ env.steps.popMax f.steps, b.key ≤ step.key := fun b hb =>
          env.steps.peekMax_le _ _ hp b (hperm.subset (by simp [hb]))
        by_cases hc : cannotBeat env contexts step = true
        · rw [if_pos hc] at h
          cases h
          refine ⟨[], ⟨by simpa using hperm.symm, by simp, by simp, by simp, ?_, by simp, id, by simp⟩,
            Or.inr (Or.inl rfl)⟩
          intro a ha
          simp only [List.map_nil, List.nil_append, Option.toList_some, List.mem_singleton] at ha
          rw [ha]
          exact hmax
        · rw [if_neg hc] at h
          simp only [Option.bind_eq_bind, Option.bind_eq_some_iff] at h
          obtain ⟨g, hg, h⟩ := h
          obtain ⟨new, k1, e1, a1, s1, p1, v1⟩ := considerKeys_queued hg
          simp only [Bool.false_or] at e1
          have s2 : (g.settle step.isSingle step).steps = env.steps.popMax f.steps := s1
          have p2 : (g.settle step.isSingle step).stopped = none := p1.trans hs
          have v2 : (g.settle step.isSingle step).visited = f.visited ++ [step.ix] := by
            show g.visited ++ _ = _
            rw [v1]
          have k2 : (g.settle step.isSingle step).keys = f.keys ++ new := k1
          have a2 : (g.settle step.isSingle step).added =
              f.added + if (!new.isEmpty || !step.isSingle) = true then 1 else 0 := by
            show (if (g.enqueued || !step.isSingle) = true then g.added + 1 else g.added) = _
            rw [e1, a1]
            split <;> rfl
          have hlen := hperm.length_eq
          rw [List.length_cons] at hlen
          obtain ⟨taken, ht, hend⟩ := ih p2 (by rw [s2]; omega) h
            ⟨by simp [p2], by simp, by simp, by simp [p2], by simp [p2], by simp, id, by simp⟩
          refine ⟨(step, new) :: taken, ⟨?_, ?_, ?_, ?_, ?_, ?_, ?_, ?_⟩, hend⟩
          · have h2 := ht.steps
            rw [s2] at h2
            exact hperm.symm.trans (h2.cons step)
          · rw [ht.visited, v2]
            simp
          · rw [ht.keys, k2]
            simp
          · rw [List.map_cons, List.cons_append, List.pairwise_cons]
            refine ⟨fun b hb => hmax b ?_, ht.order⟩
            rw [← s2]
            refine ht.steps.mem_iff.2 ?_
            rw [← List.append_assoc]
            exact List.mem_append_left _ hb
          · intro a ha b hb
            rw [List.map_cons, List.cons_append, List.mem_cons] at ha
            rcases ha with rfl | ha
            · refine hmax b ?_
              rw [← s2]
              exact ht.steps.mem_iff.2 (by simp [hb])
            · exact ht.left a ha b hb
          · rw [ht.added, a2, List.countP_cons]
            simp only
            omega
          · intro _
            refine ht.bound ?_
            rw [a2]
            split <;> omega
          · intro p hp'
            rcases List.mem_cons.1 hp' with rfl | hp'
            · exact Bool.eq_false_iff.2 hc
            · exact ht.worth p hp'

theorem lonely_iff {s : Step} : s.isSingle = true ↔ Spec.Lonely s := by
  unfold Step.isSingle Spec.Lonely
  rw [Bool.and_eq_true, Option.isNone_iff_eq_none, beq_iff_eq, List.length_eq_zero_iff]

theorem hasWork_iff {p : Step × List FetchKey} :
    (!p.2.isEmpty || !p.1.isSingle) = true ↔ Spec.HasWork p := by
  unfold Spec.HasWork
  rw [← lonely_iff]
  cases p.1.isSingle <;> simp

theorem cannotBeat_false {env : TreeEnv} {contexts : List Context} {st : Step}
    (h : cannotBeat env contexts st = false) : contexts.length < 800 ∨
      ∃ c ∈ contexts, F64.fle st.node.maxRelev c.relev = false := by
  by_cases hl : contexts.length < 800
  · exact Or.inl hl
  · refine Or.inr ?_
    unfold cannotBeat at h
    rw [decide_eq_true (show maxResults ≤ contexts.length by
      show 40 * 20 ≤ _
      omega), Bool.true_and] at h
    cases hp : env.contexts.peekMin contexts with
    | none =>
      rw [(env.contexts.peekMin_none _).1 hp] at hl
      exact absurd (by decide) hl
    | some worst =>
      rw [hp] at h
      exact ⟨worst, env.contexts.peekMin_mem _ _ hp, h⟩

theorem cannotBeat_true {env : TreeEnv} {contexts : List Context} {st : Step}
    (h : cannotBeat env contexts st = true) : 800 ≤ contexts.length ∧
      ∀ c ∈ contexts, st.node.maxRelev ≤ c.relev := by
  unfold cannotBeat at h
  rw [Bool.and_eq_true, decide_eq_true_eq] at h
  refine ⟨h.1, fun c hc => ?_⟩
  cases hp : env.contexts.peekMin contexts with
  | none => rw [hp] at h; exact absurd h.2 (by simp)
  | some worst =>
    rw [hp] at h
    refine (fle_le h.2).trans ?_
    rcases bestFirst_of_sortKey (env.contexts.peekMin_le _ _ hp c hc) with hb | hb
    · exact hb.le
    · exact hb.1.le

/-- All steps of the state carry the right flag. -/
def AllFlagged (env : TreeEnv) (opts : MatchOpts) (s : TreeState) : Prop :=
  ∀ st ∈ s.steps, Flagged env.toEnv opts st

theorem mem_of_mapM_filterMap {α : Type} {f : α → Option (Option Step)} {l : List α}
    {os : List (Option Step)} (h : l.mapM f = some os) {s : Step} (hs : s ∈ os.filterMap id) :
    ∃ a ∈ l, f a = some (some s) := by
  induction l generalizing os with
  | nil =>
    rw [List.mapM_nil] at h
    cases h
    simp at hs
  | cons a t ih =>
    rw [List.mapM_cons] at h
    simp only [Option.bind_eq_bind, Option.bind_eq_some_iff] at h
    obtain ⟨o, ho, os', hos, h⟩ := h
    cases h
    rw [List.mem_filterMap] at hs
    obtain ⟨x, hx, hxs⟩ := hs
    rcases List.mem_cons.1 hx with rfl | hx
    · exact ⟨a, by simp, by rw [ho]; exact congrArg some hxs⟩
    · obtain ⟨b, hb, hfb⟩ := ih hos (List.mem_filterMap.2 ⟨x, hx, hxs⟩)
      exact ⟨b, List.mem_cons_of_mem _ hb, hfb⟩

theorem treeInit_flagged {env : TreeEnv} {t : StackTree} {opts : MatchOpts} {s : TreeState}
    (h : treeInit env t opts = some s) : AllFlagged env opts s := by
  unfold treeInit at h
  split at h
  · cases h
  · rw [Option.map_eq_some_iff] at h
    obtain ⟨ss, h1, h⟩ := h
    cases h
    intro st hst
    have hst := (pushAll_perm _ _ _).mem_iff.1 hst
    rw [List.append_nil] at hst
    unfold firstSteps at h1
    rw [Option.map_eq_some_iff] at h1
    obtain ⟨os, h1, h2⟩ := h1
    rw [← h2] at hst
    obtain ⟨c, _, hc⟩ := mem_of_mapM_filterMap h1 hst
    cases hg : t.arena.get c with
    | none => rw [hg] at hc; cases hc
    | some node =>
      rw [hg] at hc
      simp only [Option.bind_eq_some_iff, Option.map_eq_some_iff] at hc
      obtain ⟨q, _, st', h3, h4⟩ := hc
      cases h4
      exact newStep_flagged h3

theorem expandStep_flagged {env : TreeEnv} {t : StackTree} {opts : MatchOpts}
    {cache : HMap ℕ (List MatchEntry)} {step : Step} {r : List Context × List Step}
    (h : expandStep env t opts cache step = some r) :
    ∀ st ∈ r.2, Flagged env.toEnv opts st := by
  obtain ⟨_, _, _, _, h, _⟩ := expandStep_some h
  unfold nextSteps at h
  intro st hst
  split at h
  · rw [← Option.some.inj h] at hst
    simp at hst
  · rw [Option.map_eq_some_iff] at h
    obtain ⟨os, h1, h2⟩ := h
    rw [← h2] at hst
    obtain ⟨c, _, hc⟩ := mem_of_mapM_filterMap h1 hst
    unfold nextStep at hc
    cases hg : t.arena.get c with
    | none => rw [hg] at hc; cases hc
    | some node =>
      rw [hg] at hc
      simp only [Option.bind_eq_bind, Option.bind_eq_some_iff] at hc
      obtain ⟨q, _, boxes, _, hc⟩ := hc
      split at hc
      · rw [Option.map_eq_some_iff] at hc
        obtain ⟨st', h3, h4⟩ := hc
        cases h4
        exact newStep_flagged h3
      · cases hc

theorem mapM_forall {α β : Type} {f : α → Option β} {P : β → Prop} (hf : ∀ a b, f a = some b → P b)
    {l : List α} {r : List β} (h : l.mapM f = some r) : ∀ b ∈ r, P b := by
  induction l generalizing r with
  | nil =>
    rw [List.mapM_nil] at h
    cases h
    simp
  | cons a t ih =>
    rw [List.mapM_cons] at h
    simp only [Option.bind_eq_bind, Option.bind_eq_some_iff] at h
    obtain ⟨o, ho, os', hos, h⟩ := h
    cases h
    intro b hb
    rcases List.mem_cons.1 hb with rfl | hb
    · exact hf a _ ho
    · exact ih hos b hb

theorem round_flagged {env : TreeEnv} {t : StackTree} {opts : MatchOpts} {s s' : TreeState}
    (hs : AllFlagged env opts s) (h : treeRound env t opts s = some s') :
    AllFlagged env opts s' := by
  obtain ⟨taken, keys, results, expanded, hr⟩ := treeRound_round h
  intro st hst
  rcases List.mem_append.1 (hr.next.mem_iff.1 hst) with h1 | h1
  · obtain ⟨r, hr1, hr2⟩ := List.mem_flatMap.1 h1
    exact mapM_forall (fun _ _ h => expandStep_flagged h) hr.grown r hr1 st hr2
  · exact hs st (hr.steps.mem_iff.2 (by simp [h1]))

theorem reached_flagged {env : TreeEnv} {t : StackTree} {opts : MatchOpts} {s : TreeState}
    (h : Spec.TreeReached env t opts s) : AllFlagged env opts s := by
  induction h with
  | init h => exact treeInit_flagged h
  | round _ _ _ h ih => exact round_flagged ih h

theorem pairwise_not_outranks {env : Env} {opts : MatchOpts} {l : List Step}
    (hf : ∀ a ∈ l, Flagged env opts a) (h : l.Pairwise fun a b => b.key ≤ a.key) :
    l.Pairwise fun a b => ¬ Spec.Outranks env opts b a := by
  refine h.imp_of_mem ?_
  intro a b ha hb hab
  exact (key_le_iff (hf a ha) (hf b hb)).1 hab

end Carmen
