import Verif.Lemmas.StepOrder
import Verif.Lemmas.StepPossible
import Verif.Props.TreeCoalesce

/-!
# C61: tree coalesce works best first, eight steps at a time
-/

namespace Carmen

/-- **C61.** In every round from every state tree coalesce can reach, steps are taken best first,
nothing better is left behind, and a round has eight steps with something to do unless there are
no more or the loop ends. -/
theorem C61_best_first {env : TreeEnv} {t : StackTree} {opts : MatchOpts} {s s' : TreeState}
    (hr : Spec.TreeReached env t opts s) (h : treeRound env t opts s = some s') :
    ∃ taken, Spec.BestFirst env opts s s' taken := by
  have hflag := reached_flagged hr
  obtain ⟨_, _, _, _, hround⟩ := treeRound_round h
  unfold treeRound at h
  simp only [Option.bind_eq_bind, Option.bind_eq_some_iff] at h
  obtain ⟨f, hf, results, _, expanded, _, h⟩ := h
  cases h
  unfold TreeState.fill at hf
  obtain ⟨taken, ht, hend⟩ := fillChunk_ordered (n := s.steps.length)
    (f := ⟨s.steps, s.counts, [], [], false, [], 0, [], none⟩) rfl le_rfl hf
  have hmem : ∀ a ∈ taken.map Prod.fst ++ f.stopped.toList, Flagged env.toEnv opts a := fun a ha =>
    hflag a (ht.steps.mem_iff.2 (by rw [← List.append_assoc]; exact List.mem_append_left _ ha))
  have hadded := ht.added
  simp only [Nat.zero_add] at hadded
  have hcount : ∀ l : List (Step × List FetchKey), (∀ p ∈ l, Spec.HasWork p) →
      l.countP (fun p => !p.2.isEmpty || !p.1.isSingle) = l.length := fun l hl =>
    List.countP_eq_length.2 fun p hp => hasWork_iff.2 (hl p hp)
  refine ⟨taken, ht.steps, ?_, pairwise_not_outranks hmem ht.order, ?_,
    fun p hp => cannotBeat_false (ht.worth p hp), ?_, ?_, ?_⟩
  · show s.fetched ++ f.keys = _
    rw [ht.keys]
    rfl
  · intro a ha b hb
    exact (key_le_iff (hmem a ha) (hflag b (ht.steps.mem_iff.2
      (List.mem_append_right _ (List.mem_append_right _ hb))))).1 (ht.left a ha b hb)
  · intro st hst
    obtain ⟨h1, h2⟩ := hround.stopped st hst
    obtain ⟨h3, h4⟩ := cannotBeat_true h1
    refine ⟨h3, fun a ha c hc => le_trans ?_ (h4 c hc)⟩
    rcases List.mem_cons.1 ha with rfl | ha
    · exact le_rfl
    · have := h2 a ha
      unfold Step.key at this
      rw [Prod.Lex.toLex_le_toLex] at this
      rcases this with h | h
      · exact h.le
      · exact h.1.le
  · intro l hl hw
    have h1 := hl.countP_le (p := fun p => !p.2.isEmpty || !p.1.isSingle)
    rw [hcount l hw, ← hadded] at h1
    exact h1.trans (ht.bound (Nat.zero_le _))
  · rcases hend with h1 | h1 | h1
    · exact Or.inl h1
    · exact Or.inr (Or.inl h1)
    · refine Or.inr (Or.inr ?_)
      refine ⟨taken.filter (fun p => !p.2.isEmpty || !p.1.isSingle), List.filter_sublist, ?_, ?_⟩
      · intro p hp
        exact hasWork_iff.1 (List.mem_filter.1 hp).2
      · have h2 := ht.bound (Nat.zero_le _)
        rw [hadded] at h1 h2
        rw [← List.countP_eq_length_filter]
        exact le_antisymm h2 h1

/-- **C61.** What a step waiting in any state that tree coalesce can reach is put in order by: at the
root the weight of its phrase match, and further down the sum of this weight and the highest
relevance of the contexts that were found above it, 0 if there are none with a positive one. -/
theorem C61_possible {env : TreeEnv} {t : StackTree} {opts : MatchOpts} {s : TreeState}
    (h : Spec.TreeReached env t opts s) : ∀ st ∈ s.steps, Spec.NotesPossible st :=
  reached_possible h

/-- Ten phrase matches for one token, so ten nodes without parents and children; the box of the
index of number 4 is the only one with the tile (5, 5) in it. -/
def tenPms : List Subquery :=
  (List.range 10).map fun i => ⟨{ regionTreeStore with
    bboxes := if i = 4 then [⟨0, 0, 9, 9⟩] else [⟨20, 0, 30, 30⟩] }, i, [], 1, 1,
    [⟨⟨.exact 1, 1⟩, false, i, 1⟩]⟩

/-- The states of the first two rounds. -/
def tenRun : Option (StackTree × TreeState × TreeState × TreeState) := do
  let t ← stackable tenPms
  let s ← treeInit (listTreeEnv false) t ⟨none, some (5, 5), 6⟩
  let s' ← treeRound (listTreeEnv false) t ⟨none, some (5, 5), 6⟩ s
  let s'' ← treeRound (listTreeEnv false) t ⟨none, some (5, 5), 6⟩ s'
  some (t, s, s', s'')

/-- The node with the point inside is taken first, not where the heap would have it; eight nodes are
taken in the first round and the other two in the second. -/
example : tenRun.map (fun r => (r.2.2.1.fetched.map (·.q.idx), r.2.2.1.visited.length,
    r.2.2.1.left.length, r.2.2.2.visited.length, r.2.2.2.left.length)) =
    some ([4, 9, 8, 7, 6, 5, 3, 2], 8, 2, 10, 0) := by decide +kernel

/-- The states of that run are reached. -/
example : ∃ t s s' s'', tenRun = some (t, s, s', s'') ∧
    Spec.TreeReached (listTreeEnv false) t ⟨none, some (5, 5), 6⟩ s ∧
    Spec.TreeReached (listTreeEnv false) t ⟨none, some (5, 5), 6⟩ s' ∧
    treeRound (listTreeEnv false) t ⟨none, some (5, 5), 6⟩ s = some s' ∧
    treeRound (listTreeEnv false) t ⟨none, some (5, 5), 6⟩ s' = some s'' := by
  have h : (tenRun.map fun r => !r.2.1.steps.isEmpty && r.2.1.stopped.isNone) = some true := by
    decide +kernel
  rw [Option.map_eq_some_iff] at h
  obtain ⟨⟨t, s, s', s''⟩, h, hne⟩ := h
  have h' := h
  unfold tenRun at h'
  simp only [Option.bind_eq_bind, Option.bind_eq_some_iff, Option.some.injEq] at h'
  obtain ⟨t0, h1, s0, h2, s1, h3, s2, h4, h5⟩ := h'
  cases h5
  simp only [Bool.and_eq_true, Bool.not_eq_true', List.isEmpty_eq_false_iff,
    Option.isNone_iff_eq_none] at hne
  exact ⟨t, s, s', s'', h, .init h2, .round (.init h2) hne.1 hne.2 h3, h3, h4⟩

end Carmen
