import Verif.Props.Coalesce

/-!
# C82: the order of a stack makes no difference to `coalesce`
-/

namespace Carmen
open Builder Spec

theorem sort_stack_perm {stack stack' : List Subquery} (hp : stack.Perm stack')
    (hk : (stack.map Subquery.stackKey).Nodup) :
    (stack.insertionSort fun a b => a.stackKey ≤ b.stackKey) =
      stack'.insertionSort fun a b => a.stackKey ≤ b.stackKey := by
  have h1 := List.perm_insertionSort (fun a b : Subquery => a.stackKey ≤ b.stackKey) stack
  have h2 := List.perm_insertionSort (fun a b : Subquery => a.stackKey ≤ b.stackKey) stack'
  have : Std.Total fun a b : Subquery => a.stackKey ≤ b.stackKey := ⟨fun a b => le_total _ _⟩
  have : IsTrans Subquery fun a b => a.stackKey ≤ b.stackKey := ⟨fun _ _ _ => le_trans⟩
  refine List.Perm.eq_of_pairwise ?_ (List.pairwise_insertionSort _ _)
    (List.pairwise_insertionSort _ _) (h1.trans (hp.trans h2.symm))
  intro a b ha hb hab hba
  exact List.inj_on_of_nodup_map hk (h1.mem_iff.1 ha) (hp.mem_iff.2 (h2.mem_iff.1 hb))
    (le_antisymm hab hba)

/-- C82: for phrase matches of which no two have both zoom and index number in common, `coalesce`
returns the same for every order of the stack, whatever the hash orders, and panics in the same
cases. -/
theorem C82_any_order (env : Env) (os : ℕ → IterOrder) {stack stack' : List Subquery}
    (opts : MatchOpts) (hp : stack.Perm stack')
    (hk : (stack.map fun q => (q.store.zoom, q.idx)).Nodup) :
    coalesce env os stack opts = coalesce env os stack' opts := by
  have hk' : (stack.map Subquery.stackKey).Nodup := by
    have : stack.map Subquery.stackKey = (stack.map fun q => (q.store.zoom, q.idx)).map toLex := by
      rw [List.map_map]
      rfl
    rw [this]
    exact hk.map toLex.injective
  have h : allContexts env os stack opts = allContexts env os stack' opts := by
    unfold allContexts
    rw [← hp.length_eq]
    split_ifs with hlen
    · match stack, stack', hp, hlen with
      | [], _, hp, _ => rw [List.nil_perm.1 hp]
      | [q], _, hp, _ => rw [List.singleton_perm.1 hp]
    · unfold coalesceMulti
      rw [sort_stack_perm hp hk']
  unfold coalesce
  rw [h]

/-- C82: with index numbers all different, neither the order of the stack nor the order of the hash
maps makes a difference. -/
theorem C82_any_hash_order (env : Env) (os os' : ℕ → IterOrder) {stack stack' : List Subquery}
    (opts : MatchOpts) (hp : stack.Perm stack') (hidx : (stack.map (·.idx)).Nodup)
    (hmask : ∀ q ∈ stack, q.mask ≠ 0) :
    coalesce env os stack opts = coalesce env os' stack' opts := by
  rw [C40_hash_order env os os' stack opts hidx hmask]
  refine C82_any_order env os' opts hp (List.Nodup.of_map Prod.snd ?_)
  rw [List.map_map]
  exact hidx

/-- A stack of a region and a street in both orders: six contexts are found, the best of a street in
the region. -/
example : ([regionMatch, streetMatch].map (·.idx)).Nodup ∧
    (∀ q ∈ [regionMatch, streetMatch], q.mask ≠ 0) ∧
    [regionMatch, streetMatch].Perm [streetMatch, regionMatch] ∧
    (coalesce listEnv (fun _ => .id) [streetMatch, regionMatch] ⟨none, none, 6⟩).map ctxIds =
      (coalesce listEnv (fun _ => .rev) [regionMatch, streetMatch] ⟨none, none, 6⟩).map ctxIds ∧
    ((coalesce listEnv (fun _ => .id) [streetMatch, regionMatch] ⟨none, none, 6⟩).map
      fun cs => (cs.map fun c => c.entries.length).head?) = some (some 2) :=
  ⟨by decide +kernel, by decide +kernel, List.Perm.swap _ _ _, by decide +kernel, by decide +kernel⟩

/-- The region's phrase once more under another mask: the same zoom and the same index number. -/
def regionAgain : Subquery := { regionMatch with mask := 2 }

/-- C82: two phrase matches of one index at the same zoom: the order does make a difference. -/
theorem C82_same_index : ∃ env os stack stack' opts, stack.Perm stack' ∧
    coalesce env os stack opts ≠ coalesce env os stack' opts ∧
    ∀ q ∈ stack, q.mask ≠ 0 := by
  refine ⟨listEnv, fun _ => .id, [regionMatch, regionAgain], [regionAgain, regionMatch],
    ⟨none, none, 6⟩, List.Perm.swap _ _ _, ?_, by decide +kernel⟩
  intro h
  have := congrArg (Option.map fun cs : List Context => cs.map fun c => c.entries.map (·.mask)) h
  revert this
  decide +kernel

end Carmen
