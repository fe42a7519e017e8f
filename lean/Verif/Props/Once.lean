import Verif.Lemmas.TreeOnce
import Verif.Lemmas.Regroup
import Verif.Props.TreeCoalesce

/-!
# C80: no context is returned twice
-/

namespace Carmen
open Spec

theorem oneOwner_of_once {pms : List Subquery} (h : KeysOnce pms) : OneOwner pms := by
  have hnd := List.nodup_flatMap.1 h
  intro a ha b hb k hk l hl hid
  have hab : a = b := by
    by_contra hne
    have : Std.Symm (Function.onFun List.Disjoint fun q : Subquery =>
        q.matchKeys.map KeyWithId.id) := ⟨fun _ _ h => List.disjoint_symm h⟩
    exact hnd.2.forall ha hb hne (List.mem_map_of_mem hk) (hid ▸ List.mem_map_of_mem hl)
  subst hab
  exact ⟨rfl, List.inj_on_of_nodup_map (hnd.1 a ha) hk hl hid⟩

theorem tree_once {env : TreeEnv} {sm : ℕ} {pms : List Subquery} {t : StackTree}
    {opts : MatchOpts} {out : List Context} (h : stackableWith sm pms = some t) (hnd : pms.Nodup)
    (hone : OneOwner pms) (hk : ∀ q ∈ pms, (q.matchKeys.map KeyWithId.id).Nodup)
    (hout : treeCoalesce env t opts = some out) : (out.map parts).Nodup := by
  obtain ⟨s₀, s, h1, h2, rfl⟩ := treeCoalesce_some hout
  have hi := treeLoop_induct (P := SameInv t)
    (fun _ _ _ _ _ _ hs _ hround => hs.round h hnd hone hk (C32_tree_shape h) hround) _
    (treeInit_same h1) h2
  exact ((env.contexts.intoVecDesc_perm _).map parts).nodup_iff.2 hi.nodup

/-- **C80** for a tree: no two contexts returned are made of the same tiles and features for the
same match keys. -/
theorem C80_tree {env : TreeEnv} {sm : ℕ} {pms : List Subquery} {t : StackTree}
    {opts : MatchOpts} {out : List Context} (h : stackableWith sm pms = some t) (hnd : pms.Nodup)
    (hk : KeysOnce pms) (hout : treeCoalesce env t opts = some out) : (out.map parts).Nodup :=
  tree_once h hnd (oneOwner_of_once hk) (List.nodup_flatMap.1 hk).1 hout

/-- **C80**: `stack_and_coalesce` returns no context twice. -/
theorem C80_request {env : TreeEnv} {qs : List Subquery} {opts : MatchOpts} {out : List Context}
    (hd : Delivered qs) (hout : stackAndCoalesce env qs opts = some out) :
    (out.map parts).Nodup := by
  unfold stackAndCoalesce at hout
  simp only [Option.bind_eq_bind, Option.bind_eq_some_iff] at hout
  obtain ⟨collapsed, h1, t, h2, hout⟩ := hout
  obtain ⟨rep, orig, grp, hr⟩ := collapse_regroups hd h1
  have hinj : ∀ a ∈ collapsed, ∀ b ∈ collapsed, ∀ k ∈ a.matchKeys, ∀ l ∈ b.matchKeys,
      k.id = l.id → a = b ∧ k = l := by
    intro a ha b hb k hk l hl hid
    obtain ⟨i1, i2, i3⟩ := hr.orig_mem a ha k hk
    obtain ⟨i4, i5, i6⟩ := hr.orig_mem b hb l hl
    obtain ⟨e1, e2⟩ := delivered_inj hd i1 i4 (i3 ▸ List.mem_singleton_self k)
      (i6 ▸ List.mem_singleton_self l) hid
    refine ⟨hr.inj a ha b hb (groupKey_of_bare ?_), e2⟩
    rw [← i2, ← i5, e1]
  unfold stackable at h2
  exact tree_once h2 hr.nodup hinj
    (fun q hq => List.Nodup.map_on (fun k hk l hl hid => (hinj q hq q hq k hk l hl hid).2)
      (hr.keys q hq)) hout

/-- The hypotheses of C80 on a region and a street, and what comes out: six different contexts. -/
example : Delivered [regionTreeMatch, streetTreeMatch] ∧ KeysOnce [regionTreeMatch, streetTreeMatch] ∧
    ((stackAndCoalesce (listTreeEnv false) [regionTreeMatch, streetTreeMatch] plainOpts).map
      fun cs => cs.map parts) = some [[(1, 5, 9, 7), (0, 1, 2, 3)], [(1, 5, 9, 7), (0, 1, 2, 4)],
        [(1, 5, 9, 7)], [(1, 40, 40, 8)], [(0, 1, 2, 3)], [(0, 1, 2, 4)]] := by
  refine ⟨⟨by decide +kernel, by decide +kernel, by decide +kernel⟩, ?_, by decide +kernel⟩
  unfold KeysOnce
  decide +kernel

/-- With a match key delivered twice contexts come back twice: its id is needed to be its own. -/
theorem C80_repeated_key : ∃ out, stackAndCoalesce (listTreeEnv false)
    [regionTreeMatch, regionTreeMatch, streetTreeMatch] plainOpts = some out ∧ ¬ out.Nodup := by
  have h : ((stackAndCoalesce (listTreeEnv false)
      [regionTreeMatch, regionTreeMatch, streetTreeMatch] plainOpts).map fun cs =>
        decide (cs.Nodup)) = some false := by decide +kernel
  rw [Option.map_eq_some_iff] at h
  obtain ⟨out, h1, h2⟩ := h
  exact ⟨out, h1, of_decide_eq_false h2⟩

end Carmen
