import Verif.Props.EndToEnd

/-!
# C75: a scan that is given up as not worth it

A case for the theorems `C75_tree` and `C75_complete`, in which the rule of coalesce.rs:527-537
really costs a context.
-/

namespace Carmen
open Spec Builder

/-- There is room to try the scans of few stacks. -/
theorem roomToTry_of_few {pms : List Subquery}
    (h : ((pms.sublists'.flatMap List.permutations').filter fun qs =>
      decide ((qs.map (·.store.typeId)).Pairwise (· < ·))).length ≤ 8)
    (h1 : ∀ q ∈ pms, q.matchKeys.length = 1) : RoomToTryGroups pms := by
  intro l hl hall
  have hlen : (lastScans l).length ≤ l.length := by
    clear hl
    unfold lastScans
    induction l with
    | nil => simp
    | cons a l ih =>
      rw [List.flatMap_cons, List.length_append, List.length_cons]
      have ih := ih fun s hs => hall s (List.mem_cons_of_mem _ hs)
      suffices (a.getLast?.toList.flatMap fun q => q.matchKeys.map fun kg => (q, kg)).length ≤ 1 by
        omega
      cases hg : a.getLast? with
      | none => simp
      | some q =>
        have := h1 q ((hall a (by simp)).2.mem q (List.mem_of_getLast? hg))
        simp [this]
  have hle := hlen.trans ((length_le_of_candidates hl fun a ha => List.mem_filter.2
    ⟨stack_candidates (hall a ha).2, decide_eq_true
      (List.pairwise_map.2 (hall a ha).2.types)⟩).trans h)
  have all : ∀ n, 8 ≤ n → ∀ p, AtMost n p (lastScans l) := fun n hn p s hs _ =>
    hs.length_le.trans (hle.trans hn)
  exact ⟨all _ (by omega) _, all _ (by omega) _, all _ (by omega) _, all _ (by omega) _,
    all _ (by omega) _⟩

/-- One feature on tile (300, 550). -/
def addressBuilder : Builder := Builder.new.append ⟨2, 1⟩ [⟨1, 3, 300, 550, 9, 0⟩]

/-- An index at zoom 14, of type 1. -/
def addressStore : Store :=
  Store.openWith ((finish .id addressBuilder).getD []) 14 1 (lit 100) [⟨0, 0, 16383, 16383⟩] 0

/-- A region and the start of an address in it, of little weight, and a region of the highest weight
for all of the query. -/
def slowPms : List Subquery :=
  [⟨regionTreeStore, 0, [], lit 0.25, 1, [⟨⟨.exact 1, 1⟩, false, 0, 5⟩]⟩,
    ⟨addressStore, 1, [], lit 0.25, 2, [⟨⟨.range 1 5, 1⟩, false, 1, 5⟩]⟩,
    ⟨{ regionTreeStore with zoom := 6 }, 2, [], 1, 3, [⟨⟨.exact 1, 1⟩, false, 2, 5⟩]⟩]

/-- Everything but the address in the region comes back. -/
example : (stackAndCoalesce (listTreeEnv false) slowPms plainOpts).map (fun out =>
    out.map fun c => c.entries.map fun e => (e.idx, e.entry.id)) =
    some [[(2, 3)], [(2, 4)], [(1, 9)], [(0, 3)], [(0, 4)]] := by decide +kernel

/-- The hypotheses of C75 hold, and the address in the region stacks up but does not come back, so
that the last case of the theorem applies. -/
example : ∃ out hs, stackAndCoalesce (listTreeEnv false) slowPms plainOpts = some out ∧
    HitsStackUp (listTreeEnv false).toEnv plainOpts slowPms hs ∧ hs.length = 2 ∧
    NotWorthTrying (listTreeEnv false).toEnv plainOpts slowPms hs out := by
  have hev : ((stackAndCoalesce (listTreeEnv false) slowPms plainOpts).bind fun out =>
      (hitAt (slowPms[0]'(by decide)) 0).bind fun a =>
      (hitAt (slowPms[1]'(by decide)) 0).map fun b =>
        decide (out.length < 40) &&
        (a.q.store.bboxes.any fun bb => decide (bb.minX ≤ a.grid.entry.x ∧
          a.grid.entry.x ≤ bb.maxX ∧ bb.minY ≤ a.grid.entry.y ∧ a.grid.entry.y ≤ bb.maxY)) &&
        (b.q.store.bboxes.any fun bb => decide (bb.minX ≤ b.grid.entry.x ∧
          b.grid.entry.x ≤ bb.maxX ∧ bb.minY ≤ b.grid.entry.y ∧ b.grid.entry.y ≤ bb.maxY)) &&
        decide (a.tile.1 ≤ b.tile.1 ∧ a.tile.2.1 = b.tile.2.1 / 2 ^ (b.tile.1 - a.tile.1) ∧
          a.tile.2.2 = b.tile.2.2 / 2 ^ (b.tile.1 - a.tile.1)) &&
        decide (∀ c ∈ out, c.entries.length = 1)) = some true := by decide +kernel
  obtain ⟨out, hout, hev⟩ := Option.bind_eq_some_iff.1 hev
  obtain ⟨a, ha, hev⟩ := Option.bind_eq_some_iff.1 hev
  obtain ⟨b, hb, hev⟩ := Option.map_eq_some_iff.1 hev
  simp only [Bool.and_eq_true, decide_eq_true_eq, List.any_eq_true] at hev
  obtain ⟨⟨⟨⟨e1, e2⟩, e3⟩, e4⟩, e5⟩ := hev
  obtain ⟨a1, a2⟩ := hitAt_first ha
  obtain ⟨b1, b2⟩ := hitAt_first hb
  have hup : HitsStackUp (listTreeEnv false).toEnv plainOpts slowPms [a, b] := by
    refine ⟨by simp, ?_, ?_, ?_, ?_, ?_⟩
    · rintro ⟨l, h, _⟩
      have := congrArg List.length h
      simp at this
    · rw [List.map_cons, List.map_singleton, a1, b1]
      exact ⟨by decide +kernel, by decide +kernel, by decide +kernel, by decide +kernel,
        by decide +kernel⟩
    · intro l hl
      rcases List.mem_cons.1 hl with rfl | hl
      · exact a2
      · rw [List.mem_singleton.1 hl]
        exact b2
    · intro l hl
      rcases List.mem_cons.1 hl with rfl | hl
      · exact e2
      · rw [List.mem_singleton.1 hl]
        exact e3
    · rw [List.isChain_cons_cons]
      exact ⟨e4, List.isChain_singleton _⟩
  refine ⟨out, [a, b], hout, hup, rfl, ?_⟩
  rcases C75_complete (qs := slowPms) ⟨by decide +kernel, by decide +kernel, by decide +kernel⟩
      (few_of_small (by decide +kernel)) (Or.inr (by unfold ZoomsAscend; decide +kernel))
      (by unfold WeightsPositive; decide +kernel)
      (roomToTry_of_few (by decide +kernel) (by decide +kernel)) hout (by omega) hup with
    ⟨c, hc, hof⟩ | ⟨better, h1, h2, -⟩ | h
  · have := hof.entries.length_eq
    rw [e5 c hc] at this
    simp at this
  · have := h1.length_le
    omega
  · exact h

end Carmen
