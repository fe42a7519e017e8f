import Verif.Lemmas.NoPanic
import Verif.Props.StackNoPanic
import Verif.Props.Collapse

/-!
# C60: the coalesce functions return
-/

namespace Carmen

open Builder Spec

/-- C60: `coalesce` returns, for a non-empty stack of fit phrase matches. With overflow checks and
debug assertions, a single phrase match has to be at the zoom of the request. -/
theorem C60_coalesce {env : Env} {stack : List Subquery} {opts : MatchOpts}
    (h : RequestFit env.chk stack opts) (hne : stack ≠ [])
    (hz : env.chk = true → ∀ q, stack = [q] → opts.zoom = q.store.zoom) (os : ℕ → IterOrder) :
    ∃ out, coalesce env os stack opts = some out := by
  have hall : ∃ cs, allContexts env os stack opts = some cs := by
    unfold allContexts
    split_ifs with h1
    · match stack, hne, h1 with
      | [q], _, _ => exact coalesceSingle_fit h List.mem_cons_self (fun hk => hz hk q rfl) (os 0)
    · exact coalesceMulti_fit h os
  obtain ⟨cs, hcs⟩ := hall
  unfold coalesce
  rw [hcs, Option.bind_eq_bind, Option.bind_some]
  split <;> exact ⟨_, rfl⟩

/-- C60: `tree_coalesce` returns, for the tree of fit phrase matches. -/
theorem C60_tree_coalesce {env : TreeEnv} {sm : ℕ} {pms : List Subquery} {t : StackTree}
    {opts : MatchOpts} (h : RequestFit env.chk pms opts) (ht : TreeFit env.chk pms opts)
    (htree : stackableWith sm pms = some t) : ∃ out, treeCoalesce env t opts = some out :=
  treeCoalesce_fit h ht htree

theorem collapse_fit {chk : Bool} {qs out : List Subquery} {opts : MatchOpts}
    (h : RequestFit chk qs opts) (ht : TreeFit chk qs opts) (hc : collapse qs = some out) :
    RequestFit chk out opts ∧ TreeFit chk out opts ∧
      ∀ o ∈ out, ∃ q ∈ qs, o.weight = q.weight := by
  have hm : ∀ o ∈ out, ∃ q ∈ qs, o.store = q.store ∧ o.weight = q.weight ∧ o.matchKeys ≠ [] ∧
      ∀ k ∈ o.matchKeys, ∃ p ∈ qs, k ∈ p.matchKeys := by
    intro o ho
    obtain ⟨q, later, h1, h2⟩ := (C47_kept_keys_partial hc).made o ho
    have hq : q ∈ qs := mem_groupOf (by rw [h1]; exact List.mem_cons_self)
    refine ⟨q, hq, by rw [h2], by rw [h2], ?_, ?_⟩
    · rw [h2]
      intro he
      exact h.some_key q hq (List.append_eq_nil_iff.1 he).1
    · intro k hk
      rw [h2] at hk
      rcases List.mem_append.1 hk with hk | hk
      · exact ⟨q, hq, hk⟩
      · obtain ⟨p, hp, hkp⟩ := List.mem_filterMap.1 hk
        exact ⟨p, mem_groupOf (by rw [h1]; exact List.mem_cons_of_mem _ hp),
          List.mem_of_mem_head? hkp⟩
  refine ⟨⟨?_, ?_, ?_, h.wf, h.zoom, h.box, ?_⟩, ?_, ?_⟩
  · intro o ho
    obtain ⟨q, hq, h1, -⟩ := hm o ho
    rw [h1]; exact h.stores q hq
  · intro o ho
    obtain ⟨q, hq, -, -, h1, -⟩ := hm o ho
    exact h1
  · intro o ho k hk
    obtain ⟨q, hq, -, -, -, h1⟩ := hm o ho
    obtain ⟨p, hp, hkp⟩ := h1 k hk
    exact h.keys p hp k hkp
  · intro hk
    obtain ⟨h1, h2, h3⟩ := h.checked hk
    refine ⟨h1, h2, ?_⟩
    intro o ho
    obtain ⟨q, hq, h4, -⟩ := hm o ho
    rw [h4]; exact h3 q hq
  · intro hk
    obtain ⟨h1, h2, h3⟩ := ht hk
    refine ⟨?_, ?_, ?_⟩
    · intro a ha b hb
      obtain ⟨a', ha', e1, -⟩ := hm a ha
      obtain ⟨b', hb', e2, -⟩ := hm b hb
      rw [e1, e2]
      exact h1 a' ha' b' hb'
    · intro o ho
      obtain ⟨q, hq, e, -⟩ := hm o ho
      rw [e]; exact h2 q hq
    · intro o ho k hkk hnb o' ho'
      obtain ⟨-, -, -, -, -, h4⟩ := hm o ho
      obtain ⟨p, hp, hkp⟩ := h4 k hkk
      obtain ⟨q, hq, e, -⟩ := hm o' ho'
      rw [e]
      exact h3 p hp k hkp hnb q hq
  · intro o ho
    obtain ⟨q, hq, -, e, -⟩ := hm o ho
    exact ⟨q, hq, e⟩

/-- C60: `stack_and_coalesce` returns, for any number of fit phrase matches with finite weights of
at most one. -/
theorem C60_stack_and_coalesce {env : TreeEnv} {qs : List Subquery} {opts : MatchOpts}
    (h : RequestFit env.chk qs opts) (ht : TreeFit env.chk qs opts)
    (hw : ∀ q ∈ qs, q.weight.IsFin ∧ q.weight ≤ 1) :
    ∃ out, stackAndCoalesce env qs opts = some out := by
  obtain ⟨pms, h1⟩ := C47_returns h.some_key
  obtain ⟨h2, h3, h4⟩ := collapse_fit h ht h1
  obtain ⟨t, h5, -⟩ := C33_stackable_never_panics (sm := leafSoftMax) (by decide) (pms := pms) (by
    intro o ho
    obtain ⟨q, hq, e⟩ := h4 o ho
    rw [e]; exact hw q hq)
  obtain ⟨out, h6⟩ := C60_tree_coalesce h2 h3 h5
  refine ⟨out, ?_⟩
  unfold stackAndCoalesce stackable
  simp only [h1, h5, Option.bind_eq_bind, Option.bind_some, h6]

/-! ## A request that is fit -/

theorem regionTreeStore_fit : StoreFit regionTreeStore where
  built := (Directory.of_calls (ds := [.append ⟨1, 1⟩ [⟨1, 7, 1, 2, 3, 0⟩, ⟨lit 0.8, 1, 1, 2, 4, 0⟩]])
    (o := .id) (by simp only [List.mem_singleton, forall_eq, Call.Wf]; decide)
    (by decide +kernel)).laidOut (by decide +kernel)
  radius := by decide +kernel
  zoom := by decide

theorem streetTreeStore_fit : StoreFit streetTreeStore where
  built := (Directory.of_calls (ds := [.append ⟨2, 1⟩ [⟨1, 3, 5, 9, 7, 0⟩, ⟨1, 2, 40, 40, 8, 0⟩]])
    (o := .id) (by simp only [List.mem_singleton, forall_eq, Call.Wf]; decide)
    (by decide +kernel)).laidOut (by decide +kernel)
  radius := by decide +kernel
  zoom := by decide

/-- The street, looked up only near the point. -/
def nearStreetMatch : Subquery :=
  { streetTreeMatch with matchKeys := [⟨⟨.exact 2, 1⟩, true, 0, 5⟩] }

/-- The region and the street, near a point in the middle and in a box around it, with overflow
checks. -/
example : RequestFit true [regionTreeMatch, nearStreetMatch] ⟨some ⟨0, 0, 40, 40⟩, some (32, 32), 6⟩ ∧
    TreeFit true [regionTreeMatch, nearStreetMatch] ⟨some ⟨0, 0, 40, 40⟩, some (32, 32), 6⟩ ∧
    ∀ q ∈ [regionTreeMatch, nearStreetMatch], q.weight.IsFin ∧ q.weight ≤ 1 := by
  refine ⟨⟨?_, by decide, ?_, ?_, by decide, ?_, ?_⟩, ?_, ?_⟩
  · intro q hq
    rcases List.mem_pair.1 hq with rfl | rfl
    · exact regionTreeStore_fit
    · exact streetTreeStore_fit
  · intro q hq k hk
    rcases List.mem_pair.1 hq with rfl | rfl <;> rw [List.mem_singleton.1 hk] <;>
      exact ⟨by decide, by decide, fun _ a b h => by cases h⟩
  · exact ⟨by simp, by simp⟩
  · rintro _ b ⟨⟩
    decide
  · intro _
    exact ⟨⟨by simp [TileAt], by simp [BoxAt]⟩, by decide, by decide⟩
  · intro _
    refine ⟨by unfold ZoomsAscend; decide, by unfold BoxAt; decide, ?_⟩
    have h : ∀ q ∈ [regionTreeMatch, nearStreetMatch], ∀ b ∈
        ((⟨some ⟨0, 0, 40, 40⟩, some (32, 32), 6⟩ : MatchOpts).adjustToZoom
          q.store.zoom).withNearbyOnly.bbox, b.minX ≤ b.maxX ∧ b.minY ≤ b.maxY := by
      decide +kernel
    exact fun _ _ _ _ _ q hq _ b hb => h q hq b hb
  · intro q hq
    rcases List.mem_pair.1 hq with rfl | rfl <;> 
      exact ⟨by decide +kernel, by decide +kernel⟩

/-! ## What happens otherwise -/

/-- C60: in a release build, the last two requests of `C60_exceptions` are answered: nothing is
found. -/
theorem C60_empty_box :
    coalesce (listTreeEnv false).toEnv (fun _ => .id) [regionTreeMatch] ⟨some ⟨3, 3, 1, 1⟩, none, 6⟩ =
      some [] ∧
    stackAndCoalesce (listTreeEnv false) [nearStreetMatch] ⟨some ⟨0, 0, 5, 5⟩, some (32, 32), 6⟩ =
      some [] := by
  constructor <;> decide +kernel

/-- C60: each of these makes a function panic: no phrase matches, a phrase match without match keys,
a radius that is not a number, and, with overflow checks and debug assertions, a single phrase match
at another zoom than the request, a range that ends before it starts, an index at zoom 16 that others
can be put below, a higher type at a lower zoom, a box that ends before it starts, and a box away from
the point for a match key that is only looked up near it. -/
theorem C60_exceptions :
    coalesce (listTreeEnv false).toEnv (fun _ => .id) [] plainOpts = none ∧
    coalesce (listTreeEnv false).toEnv (fun _ => .id) [{ regionTreeMatch with matchKeys := [] }]
      plainOpts = none ∧
    stackAndCoalesce (listTreeEnv false)
      [{ regionTreeMatch with
          store := Store.openWith ((finish .id nanWitness).getD []) 14 0 .nan [] 0 }]
      ⟨none, some (0, 0), 14⟩ = none ∧
    coalesce (listTreeEnv true).toEnv (fun _ => .id) [regionTreeMatch] ⟨none, none, 7⟩ = none ∧
    stackAndCoalesce (listTreeEnv true)
      [{ regionTreeMatch with matchKeys := [⟨⟨.range 2 1, 1⟩, false, 0, 5⟩] }] plainOpts = none ∧
    stackAndCoalesce (listTreeEnv true)
      [{ regionTreeMatch with store := { regionTreeStore with zoom := 16 } },
       { streetTreeMatch with store := { streetTreeStore with zoom := 16 } }]
      ⟨none, none, 16⟩ = none ∧
    stackAndCoalesce (listTreeEnv true)
      [{ regionTreeMatch with store := { regionTreeStore with zoom := 9 } }, streetTreeMatch]
      ⟨none, none, 9⟩ = none ∧
    coalesce (listTreeEnv true).toEnv (fun _ => .id) [regionTreeMatch] ⟨some ⟨3, 3, 1, 1⟩, none, 6⟩ =
      none ∧
    stackAndCoalesce (listTreeEnv true) [nearStreetMatch] ⟨some ⟨0, 0, 5, 5⟩, some (32, 32), 6⟩ =
      none := by
  refine ⟨rfl, ?_, ?_, ?_, ?_, ?_, ?_, ?_, ?_⟩
  all_goals decide +kernel

end Carmen
