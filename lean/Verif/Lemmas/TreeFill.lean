import Verif.Model.TreeCoalesce
import Verif.Lemmas.Heap

/-!
# Filling a chunk of `tree_coalesce`
-/

namespace Carmen

/-- A scan queued for a step. -/
structure KeyOf (chk : Bool) (step : Step) (k : FetchKey) : Prop where
  q : k.q = step.q
  kg : k.kg ∈ step.q.matchKeys
  opts : keyOpts chk k.kg step.opts = some k.opts
  single : k.single = step.isSingle

/-- What considering match keys leaves alone, and where new scans come from. -/
structure Considered (chk : Bool) (step : Step) (f f' : Fill) : Prop where
  steps : f'.steps = f.steps
  chunk : f'.chunk = f.chunk
  added : f'.added = f.added
  visited : f'.visited = f.visited
  stopped : f'.stopped = f.stopped
  keys : ∃ new, f'.keys = f.keys ++ new ∧ ∀ k ∈ new, KeyOf chk step k

theorem Considered.refl (chk : Bool) (step : Step) (f : Fill) : Considered chk step f f :=
  ⟨rfl, rfl, rfl, rfl, rfl, [], by simp, by simp⟩

theorem Considered.trans {chk : Bool} {step : Step} {f g h : Fill} (h1 : Considered chk step f g)
    (h2 : Considered chk step g h) : Considered chk step f h := by
  obtain ⟨n1, hn1, hk1⟩ := h1.keys
  obtain ⟨n2, hn2, hk2⟩ := h2.keys
  refine ⟨h2.steps.trans h1.steps, h2.chunk.trans h1.chunk, h2.added.trans h1.added,
    h2.visited.trans h1.visited, h2.stopped.trans h1.stopped, n1 ++ n2, ?_, ?_⟩
  · rw [hn2, hn1, List.append_assoc]
  · intro k hk
    rcases List.mem_append.1 hk with hk | hk
    · exact hk1 k hk
    · exact hk2 k hk

/-- What one match key does: nothing, only counting, or one new scan. -/
inductive KeyMove (env : TreeEnv) (step : Step) (f : Fill) (kg : KeyWithId) : Fill → Prop
  | nothing : KeyMove env step f kg f
  | count (isRange fresh : Bool)
      (hr : isRangeKey env.chk kg.key.phrase = some isRange) :
      KeyMove env step f kg { f with counts :=
        (takeQuotas step.q.store.mightBeSlow isRange (oneToken step.q.mask) fresh kg f.counts).1 }
  | fetch (o : MatchOpts) (isRange : Bool) (ho : keyOpts env.chk kg step.opts = some o)
      (hr : isRangeKey env.chk kg.key.phrase = some isRange)
      (hq : (takeQuotas step.q.store.mightBeSlow isRange (oneToken step.q.mask) true kg
        f.counts).2 = true)
      (hfresh : (kg.id, step.isSingle) ∉ f.unique) :
      KeyMove env step f kg
        { f with counts := (takeQuotas step.q.store.mightBeSlow isRange (oneToken step.q.mask) true
                   kg f.counts).1,
                 unique := (kg.id, step.isSingle) :: f.unique,
                 keys := f.keys ++ [⟨kg, step.q, o, step.isSingle⟩], enqueued := true }

theorem considerKey_move {env : TreeEnv} {cache : HMap ℕ (List MatchEntry)}
    {contexts : List Context} {step : Step} {f f' : Fill} {kg : KeyWithId}
    (h : considerKey env cache contexts step step.isSingle f kg = some f') :
    KeyMove env step f kg f' := by
  unfold considerKey at h
  by_cases h1 : (!step.isSingle && (HMap.find kg.id cache).isSome) = true
  · rw [if_pos h1] at h
    cases h
    exact .nothing
  · rw [if_neg h1] at h
    simp only [Option.bind_eq_bind, Option.bind_eq_some_iff] at h
    obtain ⟨o, ho, isRange, hr, h⟩ := h
    by_cases h2 : (isRange && oneToken step.q.mask && notWorthIt env contexts step) = true
    · rw [if_pos h2] at h
      cases h
      exact .nothing
    · rw [if_neg h2] at h
      by_cases hu : (kg.id, step.isSingle) ∈ f.unique
      · simp only [hu, decide_true, Bool.not_true, Bool.and_false, Bool.false_eq_true,
          if_false, Option.some.injEq] at h
        subst h
        exact .count isRange false hr
      · simp only [hu, decide_false, Bool.not_false, Bool.and_true] at h
        split_ifs at h with hq
        · cases h
          exact .fetch o isRange ho hr hq hu
        · cases h
          exact .count isRange true hr

theorem KeyMove.considered {env : TreeEnv} {step : Step} {f f' : Fill} {kg : KeyWithId}
    (hkg : kg ∈ step.q.matchKeys) (h : KeyMove env step f kg f') :
    Considered env.chk step f f' := by
  cases h with
  | nothing => exact .refl _ _ _
  | count isRange fresh hr => exact ⟨rfl, rfl, rfl, rfl, rfl, [], by simp, by simp⟩
  | fetch o isRange ho hr hq hfresh =>
    refine ⟨rfl, rfl, rfl, rfl, rfl, [⟨kg, step.q, o, step.isSingle⟩], rfl, ?_⟩
    intro k hk
    rw [List.mem_singleton] at hk
    subst hk
    exact ⟨rfl, hkg, ho, rfl⟩

theorem considerKeys_considered {env : TreeEnv} {cache : HMap ℕ (List MatchEntry)}
    {contexts : List Context} {step : Step} {kgs : List KeyWithId}
    (hk : ∀ kg ∈ kgs, kg ∈ step.q.matchKeys) {f f' : Fill}
    (h : kgs.foldlM (considerKey env cache contexts step step.isSingle) f = some f') :
    Considered env.chk step f f' := by
  induction kgs generalizing f with
  | nil => cases h; exact .refl _ _ _
  | cons a t ih =>
    rw [List.foldlM_cons, Option.bind_eq_bind, Option.bind_eq_some_iff] at h
    obtain ⟨g, h1, h2⟩ := h
    exact ((considerKey_move h1).considered (hk a (by simp))).trans
      (ih (fun kg hkg => hk kg (List.mem_cons_of_mem _ hkg)) h2)

/-- What filling a chunk does: it takes steps from the heap, queues scans for them and collects
the ones that are not single; it may stop at a step that cannot beat the results. -/
structure Filled (env : TreeEnv) (contexts : List Context) (f f' : Fill) (taken : List Step) :
    Prop where
  visited : f'.visited = f.visited ++ taken.map (·.ix)
  chunk : f'.chunk = f.chunk ++ taken.filter (fun s => !s.isSingle)
  steps : f.steps.Perm (taken ++ (f'.stopped.toList ++ f'.steps))
  keys : ∃ new, f'.keys = f.keys ++ new ∧ ∀ k ∈ new, ∃ s ∈ taken, KeyOf env.chk s k
  stopped : ∀ s, f'.stopped = some s → cannotBeat env contexts s = true ∧
    ∀ s' ∈ f'.steps, s'.key ≤ s.key
  few : f.chunk.length ≤ f.added → f'.stopped.isSome = true → f'.chunk.length < chunkSize

theorem fillChunk_filled {env : TreeEnv} {cache : HMap ℕ (List MatchEntry)}
    {contexts : List Context} {n : ℕ} {f f' : Fill} (hs : f.stopped = none)
    (h : fillChunk env cache contexts n f = some f') : ∃ taken, Filled env contexts f f' taken := by
  induction n generalizing f with
  | zero =>
    cases h
    exact ⟨[], by simp, by simp, by simp [hs], ⟨[], by simp, by simp⟩, by simp [hs],
        by simp [hs]⟩
  | succ n ih =>
    unfold fillChunk at h
    by_cases h1 : chunkSize ≤ f.added
    · rw [if_pos h1] at h
      cases h
      exact ⟨[], by simp, by simp, by simp [hs], ⟨[], by simp, by simp⟩, by simp [hs],
        by simp [hs]⟩
    · rw [if_neg h1] at h
      cases hp : env.steps.peekMax f.steps with
      | none =>
        rw [hp] at h
        cases h
        exact ⟨[], by simp, by simp, by simp [hs], ⟨[], by simp, by simp⟩, by simp [hs],
        by simp [hs]⟩
      | some step =>
        rw [hp] at h
        simp only at h
        have hperm := env.steps.popMax_perm _ _ hp
        by_cases hc : cannotBeat env contexts step = true
        · rw [if_pos hc] at h
          cases h
          refine ⟨[], by simp, by simp, by simpa using hperm.symm, ⟨[], by simp, by simp⟩, ?_,
            fun hle _ => lt_of_le_of_lt hle (by omega)⟩
          intro s hs'
          cases hs'
          exact ⟨hc, fun s' hs' => env.steps.peekMax_le _ _ hp s' (hperm.subset (by simp [hs']))⟩
        · rw [if_neg hc] at h
          simp only [Option.bind_eq_bind, Option.bind_eq_some_iff] at h
          obtain ⟨g, hg, h⟩ := h
          have hcons := considerKeys_considered (fun kg hkg => hkg) hg
          obtain ⟨taken, ht⟩ := ih (f := g.settle step.isSingle step)
            (by show g.stopped = none; rw [hcons.stopped]; exact hs) h
          refine ⟨step :: taken, ?_, ?_, ?_, ?_, ht.stopped, fun hle => ht.few ?_⟩
          · rw [ht.visited]
            show g.visited ++ [step.ix] ++ _ = _
            rw [hcons.visited]
            simp
          · rw [ht.chunk]
            show (if step.isSingle = true then g.chunk else g.chunk ++ [step]) ++ _ = _
            rw [hcons.chunk]
            cases hsi : step.isSingle <;> simp [hsi]
          · have h2 := ht.steps
            have h3 : (g.settle step.isSingle step).steps = env.steps.popMax f.steps := hcons.steps
            rw [h3] at h2
            exact hperm.symm.trans (h2.cons step)
          · obtain ⟨n1, hn1, hk1⟩ := hcons.keys
            obtain ⟨n2, hn2, hk2⟩ := ht.keys
            refine ⟨n1 ++ n2, ?_, ?_⟩
            · rw [hn2]
              show g.keys ++ n2 = _
              rw [hn1, List.append_assoc]
            · intro k hk
              rcases List.mem_append.1 hk with hk | hk
              · exact ⟨step, by simp, hk1 k hk⟩
              · obtain ⟨s, hs1, hs2⟩ := hk2 k hk
                exact ⟨s, List.mem_cons_of_mem _ hs1, hs2⟩
          · show (if step.isSingle = true then g.chunk else g.chunk ++ [step]).length ≤
              if g.enqueued || !step.isSingle then g.added + 1 else g.added
            rw [hcons.chunk, hcons.added]
            cases hsi : step.isSingle
            · simpa using hle
            · simp only [if_true]
              split_ifs
              · exact Nat.le_succ_of_le hle
              · exact hle

/-- A round takes a step or stops. -/
theorem fillChunk_progress {env : TreeEnv} {cache : HMap ℕ (List MatchEntry)}
    {contexts : List Context} {n : ℕ} {f f' : Fill} (hs : f.stopped = none) (ha : f.added = 0)
    (hne : f.steps ≠ []) (h : fillChunk env cache contexts (n + 1) f = some f')
    {taken : List Step} (ht : Filled env contexts f f' taken) :
    taken ≠ [] ∨ f'.stopped.isSome = true := by
  unfold fillChunk at h
  rw [if_neg (by rw [ha]; decide)] at h
  cases hp : env.steps.peekMax f.steps with
  | none => exact absurd ((env.steps.peekMax_none _).1 hp) hne
  | some step =>
    rw [hp] at h
    simp only at h
    by_cases hc : cannotBeat env contexts step = true
    · rw [if_pos hc] at h
      cases h
      exact Or.inr rfl
    · rw [if_neg hc] at h
      simp only [Option.bind_eq_bind, Option.bind_eq_some_iff] at h
      obtain ⟨g, hg, h⟩ := h
      left
      have hcons := considerKeys_considered (fun kg hkg => hkg) hg
      obtain ⟨taken', ht'⟩ := fillChunk_filled (f := g.settle step.isSingle step)
        (by show g.stopped = none; rw [hcons.stopped]; exact hs) h
      intro hnil
      have h1 := ht.visited
      rw [ht'.visited, hnil] at h1
      have h2 : (g.settle step.isSingle step).visited = f.visited ++ [step.ix] := by
        show g.visited ++ _ = _
        rw [hcons.visited]
      rw [h2] at h1
      have := congrArg List.length h1
      simp at this

/-- The fuel never runs out: more of it changes nothing. -/
theorem fillChunk_fuel {env : TreeEnv} {cache : HMap ℕ (List MatchEntry)}
    {contexts : List Context} (n m : ℕ) (f : Fill) (hn : f.steps.length ≤ n)
    (hm : f.steps.length ≤ m) :
    fillChunk env cache contexts n f = fillChunk env cache contexts m f := by
  induction n generalizing m f with
  | zero =>
    have h0 : f.steps = [] := List.length_eq_zero_iff.1 (by omega)
    cases m with
    | zero => rfl
    | succ m =>
      unfold fillChunk
      rw [(env.steps.peekMax_none _).2 h0]
      split_ifs <;> rfl
  | succ n ih =>
    cases m with
    | zero =>
      have h0 : f.steps = [] := List.length_eq_zero_iff.1 (by omega)
      unfold fillChunk
      rw [(env.steps.peekMax_none _).2 h0]
      split_ifs <;> rfl
    | succ m =>
      unfold fillChunk
      cases hp : env.steps.peekMax f.steps with
      | none => rfl
      | some step =>
        simp only
        have hlen := (env.steps.popMax_perm _ _ hp).length_eq
        rw [List.length_cons] at hlen
        congr 2
        · refine Option.bind_congr ?_
          intro g hg
          have hcons := considerKeys_considered (fun kg hkg => hkg) hg
          have h3 : (g.settle step.isSingle step).steps = env.steps.popMax f.steps := hcons.steps
          exact ih m _ (by rw [h3]; omega) (by rw [h3]; omega)

end Carmen
