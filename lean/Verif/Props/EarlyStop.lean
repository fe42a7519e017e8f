import Verif.Props.TreeCoalesce

/-!
# C45: what the early stop of `tree_coalesce` loses

A run whose last chunk adds the best stack after the loop has decided to stop.
-/

namespace Carmen
open Format Spec Builder

/-- A phrase found in 40 features. -/
def manyBuilder : Builder :=
  Builder.new.append ⟨1, 1⟩ ((List.range 40).map fun i => ⟨lit 0.4, 1, 1, 2, i + 1, 0⟩)

/-- An index with 40 features. -/
def manyStore : Store := Store.openWith ((finish .id manyBuilder).getD []) 6 0 (lit 100)
  [⟨0, 0, 63, 63⟩] 0

/-- Phrase matches of weight 1: twenty with 40 contexts of relevance 0.4 each, and four that find
nothing. -/
def fullPms : List Subquery := (List.range 24).map fun i =>
  ⟨manyStore, i, [], 1, 3, [⟨⟨.exact (if i < 20 then 1 else 9), 1⟩, false, i, 5⟩]⟩

/-- A region and a street which are worth 0.45 each and 0.9 together, and something else that finds
nothing. -/
def lostPms : List Subquery :=
  [{ regionTreeMatch with
      idx := 10, weight := lit 0.45, matchKeys := [⟨⟨.exact 1, 1⟩, false, 30, 5⟩] },
   { streetTreeMatch with
      idx := 11, weight := lit 0.45, matchKeys := [⟨⟨.exact 2, 1⟩, false, 31, 5⟩] },
   ⟨manyStore, 12, [], lit 0.3, 3, [⟨⟨.exact 9, 1⟩, false, 40, 5⟩]⟩]

/-- C45 is false: the loop stops with all results of relevance 0.45 or less, although the street in
the region has 0.89. The region is in the last chunk, and the step for the street in it, which is
added after the loop has decided to stop, is lost. -/
theorem C45_false : ∃ t s₀ s st out,
    stackable (fullPms ++ lostPms) = some t ∧ IdsUnique (fullPms ++ lostPms) ∧
    ZoomsAscend (fullPms ++ lostPms) ∧ WeightsOk (fullPms ++ lostPms) ∧
    treeInit (listTreeEnv false) t plainOpts = some s₀ ∧
    treeLoop (listTreeEnv false) t plainOpts t.arena.nodes.length s₀ = some s ∧
    s.stopped = some st ∧
    treeCoalesce (listTreeEnv false) t plainOpts = some out ∧ out.length = 800 ∧
    ∃ ls c, StackedFrom (listTreeEnv false).toEnv t plainOpts ls c ∧ c ∉ out ∧
      ∀ r ∈ out, r.relev < c.relev := by
  have hev : ((stackable (fullPms ++ lostPms)).bind fun t =>
      (treeEnd false (fullPms ++ lostPms) plainOpts).map fun s =>
        (s.contexts.length == 800 && s.stopped.isSome &&
          s.contexts.all fun r => decide (r.relev < lit 0.5)) &&
        ((treeRound (listTreeEnv false) t plainOpts { s with stopped := none }).map fun s =>
          s.contexts.any fun c => decide (lit 0.5 < c.relev)) == some true) = some true := by
    decide +kernel
  have hids : IdsUnique (fullPms ++ lostPms) := by
    unfold IdsUnique
    decide +kernel
  have hz : ZoomsAscend (fullPms ++ lostPms) := by
    unfold ZoomsAscend
    decide +kernel
  have hw : WeightsOk (fullPms ++ lostPms) := by
    unfold WeightsOk
    decide +kernel
  obtain ⟨t', ht', hev⟩ := Option.bind_eq_some_iff.1 hev
  obtain ⟨s, hs, hev⟩ := Option.map_eq_some_iff.1 hev
  obtain ⟨t, s₀, out, ht, h0, hl, hout, hp⟩ := treeEnd_out hs
  obtain rfl : t' = t := Option.some.inj (ht'.symm.trans ht)
  rw [Bool.and_eq_true, Bool.and_eq_true, Bool.and_eq_true, beq_iff_eq, beq_iff_eq,
    List.all_eq_true] at hev
  obtain ⟨⟨⟨h1, h2⟩, h3⟩, hmore⟩ := hev
  obtain ⟨s', hs', hmore⟩ := Option.map_eq_some_iff.1 hmore
  obtain ⟨c, hc, hmore⟩ := List.any_eq_true.1 hmore
  obtain ⟨st, hst⟩ := Option.isSome_iff_exists.1 h2
  have hr : RunOk (listTreeEnv false) t' plainOpts (fullPms ++ lostPms) :=
    ⟨⟨leafSoftMax, ht⟩, hids, Or.inr hz⟩
  have hi := treeLoop_induct (P := GenuineInv (listTreeEnv false) t' plainOpts (fullPms ++ lostPms))
    (fun _ _ _ _ _ _ hs _ hround => hs.round hr hround) _ (treeInit_genuine h0) hl
  obtain ⟨taken, keys, results, expanded, hround⟩ := treeRound_round hs'
  have hi' : GenuineInv (listTreeEnv false) t' plainOpts (fullPms ++ lostPms)
      { s with stopped := none } := ⟨hi.contexts, hi.steps, hi.cache⟩
  obtain ⟨ls, hls⟩ := (hi'.round hr hround).contexts c hc
  have hlt : ∀ r ∈ out, r.relev < c.relev := fun r hrr =>
    (of_decide_eq_true (h3 r (hp.mem_iff.1 hrr))).trans (of_decide_eq_true hmore)
  exact ⟨t', s₀, s, st, out, ht, hids, hz, hw, h0, hl, hst, hout, hp.length_eq.trans h1, ls, c, hls,
    fun h => lt_irrefl _ (hlt c h), hlt⟩

/-- The hypotheses of `C45_heap_bound_partial`: nine phrase matches that find something remain
once there are 800 results. -/
example : ((treeEnd false (fullPms ++ (List.range 9).map fun i => ⟨manyStore, 100 + i, [], lit 0.4,
    3, [⟨⟨.exact 1, 1⟩, false, 100 + i, 5⟩]⟩) plainOpts).map fun s =>
    (s.contexts.length, s.stopped.isSome, s.left.length)) = some (800, true, 8) := by
  decide +kernel

end Carmen
