import Verif.Spec.Lookups
import Verif.Props.Once

/-!
# C94: nothing is looked up again
-/

namespace Carmen
open Spec

/-! ### Match keys that are cached -/

theorem considerKey_uncached {env : TreeEnv} {cache : HMap ℕ (List MatchEntry)}
    {contexts : List Context} {step : Step} {f f' : Fill} {kg : KeyWithId}
    (h : considerKey env cache contexts step step.isSingle f kg = some f')
    (hf : ∀ k ∈ f.keys, k.single = false → HMap.find k.kg.id cache = none) :
    ∀ k ∈ f'.keys, k.single = false → HMap.find k.kg.id cache = none := by
  unfold considerKey at h
  by_cases h1 : (!step.isSingle && (HMap.find kg.id cache).isSome) = true
  · rw [if_pos h1] at h
    cases h
    exact hf
  · rw [if_neg h1] at h
    simp only [Option.bind_eq_bind, Option.bind_eq_some_iff] at h
    obtain ⟨o, _, isRange, _, h⟩ := h
    split_ifs at h <;> cases h
    · exact hf
    · intro k hk hs
      rcases List.mem_append.1 hk with hk | hk
      · exact hf k hk hs
      · rw [List.mem_singleton] at hk
        subst hk
        simp only at hs ⊢
        rw [hs, Bool.not_false, Bool.true_and, Option.not_isSome_iff_eq_none] at h1
        exact h1
    · exact hf

theorem considerKeys_uncached {env : TreeEnv} {cache : HMap ℕ (List MatchEntry)}
    {contexts : List Context} {step : Step} {kgs : List KeyWithId} {f f' : Fill}
    (h : kgs.foldlM (considerKey env cache contexts step step.isSingle) f = some f')
    (hf : ∀ k ∈ f.keys, k.single = false → HMap.find k.kg.id cache = none) :
    ∀ k ∈ f'.keys, k.single = false → HMap.find k.kg.id cache = none := by
  induction kgs generalizing f with
  | nil => cases h; exact hf
  | cons kg kgs ih =>
    rw [List.foldlM_cons, Option.bind_eq_bind, Option.bind_eq_some_iff] at h
    obtain ⟨g, h1, h2⟩ := h
    exact ih h2 (considerKey_uncached h1 hf)

theorem fillChunk_uncached {env : TreeEnv} {cache : HMap ℕ (List MatchEntry)}
    {contexts : List Context} {n : ℕ} {f f' : Fill}
    (h : fillChunk env cache contexts n f = some f')
    (hf : ∀ k ∈ f.keys, k.single = false → HMap.find k.kg.id cache = none) :
    ∀ k ∈ f'.keys, k.single = false → HMap.find k.kg.id cache = none := by
  induction n generalizing f with
  | zero => cases h; exact hf
  | succ n ih =>
    unfold fillChunk at h
    split_ifs at h
    · cases h; exact hf
    · cases hp : env.steps.peekMax f.steps with
      | none => rw [hp] at h; cases h; exact hf
      | some step =>
        rw [hp] at h
        simp only at h
        split_ifs at h
        · cases h; exact hf
        · simp only [Option.bind_eq_bind, Option.bind_eq_some_iff] at h
          obtain ⟨g, hg, h⟩ := h
          have h1 := considerKeys_uncached hg hf
          exact ih h h1

theorem absorb_caches {env : TreeEnv} (rs : List Fetched)
    (p : List Context × HMap ℕ (List MatchEntry)) {id : ℕ}
    (h : (HMap.find id p.2).isSome = true ∨ ∃ data, .multi id data ∈ rs) :
    (HMap.find id (rs.foldl (absorbFetched env) p).2).isSome = true := by
  induction rs generalizing p with
  | nil =>
    rcases h with h | ⟨_, h⟩
    · exact h
    · cases h
  | cons r rs ih =>
    rw [List.foldl_cons]
    refine ih _ ?_
    rcases h with h | ⟨data, h⟩
    · left
      cases r with
      | single cs => exact h
      | multi i d =>
        change (HMap.find id (HMap.upsert i d (fun _ => d) p.2)).isSome = true
        rw [HMap.find_upsert]
        split_ifs
        · rfl
        · exact h
    · rcases List.mem_cons.1 h with rfl | h
      · left
        change (HMap.find id (HMap.upsert id data (fun _ => data) p.2)).isSome = true
        rw [HMap.find_upsert, if_pos rfl]
        rfl
      · exact Or.inr ⟨data, h⟩

/-- What is looked up to be put together with others is cached, and so not looked up again. -/
structure CachedInv (s : TreeState) : Prop where
  cached : ∀ k ∈ s.fetched, k.single = false → (HMap.find k.kg.id s.cache).isSome = true
  nodup : ((s.fetched.filter fun k => !k.single).map (·.kg.id)).Nodup

theorem nodup_ids {ks : List FetchKey} (h : (ks.map fun k => (k.kg.id, k.single)).Nodup) (b : Bool) :
    ((ks.filter fun k => k.single == b).map (·.kg.id)).Nodup := by
  have h1 : ((ks.filter fun k => k.single == b).map fun k => (k.kg.id, k.single)).Nodup :=
    h.sublist (List.filter_sublist.map _)
  have e : (ks.filter fun k => k.single == b).map (fun k => (k.kg.id, k.single)) =
      ((ks.filter fun k => k.single == b).map (·.kg.id)).map fun i => (i, b) := by
    rw [List.map_map]
    refine List.map_congr_left fun k hk => ?_
    have := (List.mem_filter.1 hk).2
    rw [beq_iff_eq] at this
    rw [Function.comp, this]
  rw [e] at h1
  exact h1.of_map _

theorem CachedInv.round {env : TreeEnv} {t : StackTree} {opts : MatchOpts} {s s' : TreeState}
    (hi : CachedInv s) {taken : List Step} {keys : List FetchKey} {results : List Fetched}
    {expanded : List (List Context × List Step)}
    (hr : Round env t opts s s' taken keys results expanded) : CachedInv s' := by
  have hnew : ∀ k ∈ keys, k.single = false → HMap.find k.kg.id s.cache = none := by
    obtain ⟨f, hf, rfl, _⟩ := hr.fill
    exact fillChunk_uncached hf (by simp)
  constructor
  · rw [hr.fetched, hr.cache]
    intro k hk hs
    refine absorb_caches _ _ ?_
    rcases List.mem_append.1 hk with hk | hk
    · exact Or.inl (hi.cached k hk hs)
    · obtain ⟨r, h1, h2⟩ := mapM_mem_left hr.got k hk
      unfold fetchKey at h2
      rw [hs] at h2
      simp only [Bool.false_eq_true, if_false, Option.bind_eq_bind, Option.bind_eq_some_iff] at h2
      obtain ⟨grids, _, h2⟩ := h2
      cases h2
      exact Or.inr ⟨_, h1⟩
  · rw [hr.fetched, List.filter_append, List.map_append, List.nodup_append]
    refine ⟨hi.nodup, ?_, ?_⟩
    · have := nodup_ids hr.keys_unique false
      simpa using this
    · intro a ha b hb he
      obtain ⟨k, hk, rfl⟩ := List.mem_map.1 ha
      obtain ⟨l, hl, rfl⟩ := List.mem_map.1 hb
      obtain ⟨k1, k2⟩ := List.mem_filter.1 hk
      obtain ⟨l1, l2⟩ := List.mem_filter.1 hl
      have h1 := hi.cached k k1 (by simpa using k2)
      rw [he, hnew l l1 (by simpa using l2)] at h1
      cases h1

/-- **C94** for any tree: no match key is looked up twice to be put together with others, however many
stacks it is in. -/
theorem C94_tree {env : TreeEnv} {t : StackTree} {opts : MatchOpts} {ks : List FetchKey}
    (h : Lookups env t opts ks) : ((ks.filter fun k => !k.single).map (·.kg.id)).Nodup := by
  obtain ⟨s₀, s, h1, h2, rfl⟩ := h
  obtain ⟨_, _, _, _, _, _, hf, _⟩ := treeInit_some h1
  have hi := treeLoop_induct (P := CachedInv)
    (fun _ _ _ _ _ _ hs _ hround => hs.round hround) _
    (by constructor <;> simp [hf]) h2
  exact hi.nodup

/-! ### Match keys on their own -/

/-- What is looked up on its own belongs to a phrase match at the top of the tree. -/
structure AloneInv (t : StackTree) (s : TreeState) : Prop where
  same : SameInv t s
  top : ∀ k ∈ s.fetched, k.single = true → ∃ ix ∈ s.visited, ∃ m, Reach t t.root [ix] [k.q] m ∧
    k.kg ∈ k.q.matchKeys
  nodup : ((s.fetched.filter fun k => k.single).map (·.kg.id)).Nodup
  known : ∀ k ∈ s.fetched, k.kg ∈ k.q.matchKeys ∧ ∃ is m, ∃ qs, Reach t t.root is (qs ++ [k.q]) m

theorem AloneInv.round {env : TreeEnv} {sm : ℕ} {pms : List Subquery} {t : StackTree}
    {opts : MatchOpts} (ht : stackableWith sm pms = some t) (hnd : pms.Nodup)
    (hone : OneOwner pms) (hk : ∀ q ∈ pms, (q.matchKeys.map KeyWithId.id).Nodup)
    (hch : ((t.arena.nodes.map Prod.fst).flatMap StackNode.children ++ t.root.children).Nodup)
    {s s' : TreeState} (hi : AloneInv t s) {taken : List Step} {keys : List FetchKey}
    {results : List Fetched} {expanded : List (List Context × List Step)}
    (hr : Round env t opts s s' taken keys results expanded) : AloneInv t s' := by
  have hsteps : ∀ st ∈ taken, StepOnce t st := fun st hst =>
    hi.same.steps st (hr.steps.mem_iff.2 (by simp [hst]))
  have hall : (s.visited ++ taken.map (·.ix)).Nodup := by
    have h1 := (hi.same.once.all_nodup hch).perm ((hr.steps.map (·.ix)).append_left s.visited)
    rw [List.map_append, ← List.append_assoc] at h1
    exact (List.nodup_append.1 h1).1
  have hvis := (List.nodup_append.1 hall).2.2
  have htop : ∀ k ∈ keys, k.single = true → ∃ ix ∈ taken.map (·.ix), ∃ m,
      Reach t t.root [ix] [k.q] m ∧ k.kg ∈ k.q.matchKeys := by
    intro k hkm hs
    obtain ⟨st, hst, hof⟩ := hr.of_keys k hkm
    obtain ⟨is, qs, h1, h2, _⟩ := hsteps st hst
    have hsi : st.isSingle = true := by rw [← hof.single]; exact hs
    unfold Step.isSingle at hsi
    rw [Bool.and_eq_true, Option.isNone_iff_eq_none] at hsi
    rw [h2 hsi.1] at h1
    cases is with
    | nil =>
      refine ⟨st.ix, List.mem_map_of_mem hst, st.node, ?_, ?_⟩
      · rw [hof.q]
        exact h1
      · rw [hof.q]
        exact hof.kg
    | cons i is =>
      obtain ⟨_, n', _, _, h⟩ := h1
      cases is <;> exact h.elim
  refine ⟨hi.same.round ht hnd hone hk hch hr, ?_, ?_, ?_⟩
  · rw [hr.fetched, hr.visited]
    intro k hkm hs
    rcases List.mem_append.1 hkm with hkm | hkm
    · obtain ⟨ix, h1, h2⟩ := hi.top k hkm hs
      exact ⟨ix, List.mem_append_left _ h1, h2⟩
    · obtain ⟨ix, h1, h2⟩ := htop k hkm hs
      exact ⟨ix, List.mem_append_right _ h1, h2⟩
  · rw [hr.fetched, List.filter_append, List.map_append, List.nodup_append]
    refine ⟨hi.nodup, ?_, ?_⟩
    · have := nodup_ids hr.keys_unique true
      simpa using this
    · intro a ha b hb he
      obtain ⟨k, hk, rfl⟩ := List.mem_map.1 ha
      obtain ⟨l, hl, rfl⟩ := List.mem_map.1 hb
      obtain ⟨k1, k2⟩ := List.mem_filter.1 hk
      obtain ⟨l1, l2⟩ := List.mem_filter.1 hl
      obtain ⟨i, i1, m, i2, i3⟩ := hi.top k k1 k2
      obtain ⟨j, j1, m', j2, j3⟩ := htop l l1 l2
      have hq := (hone _ (i2.mem ht _ (by simp)) _ (j2.mem ht _ (by simp)) _ i3 _ j3 he).1
      rw [hq] at i2
      have := Reach.unique (count_le_one ht hnd _) i2 j2
      rw [List.cons.injEq] at this
      exact hvis i i1 j j1 this.1
  · rw [hr.fetched]
    intro k hkm
    rcases List.mem_append.1 hkm with hkm | hkm
    · exact hi.known k hkm
    · obtain ⟨st, hst, hof⟩ := hr.of_keys k hkm
      obtain ⟨is, qs, h1, _⟩ := hsteps st hst
      rw [hof.q]
      exact ⟨hof.kg, _, _, qs, h1⟩

theorem lookups_once {env : TreeEnv} {sm : ℕ} {pms : List Subquery} {t : StackTree}
    {opts : MatchOpts} {ks : List FetchKey} (h : stackableWith sm pms = some t) (hnd : pms.Nodup)
    (hone : OneOwner pms) (hk : ∀ q ∈ pms, (q.matchKeys.map KeyWithId.id).Nodup)
    (hks : Lookups env t opts ks) : ((ks.filter fun k => k.single).map (·.kg.id)).Nodup ∧
      ∀ k ∈ ks, k.q ∈ pms ∧ k.kg ∈ k.q.matchKeys := by
  obtain ⟨s₀, s, h1, h2, rfl⟩ := hks
  obtain ⟨_, _, _, _, _, _, hf, _⟩ := treeInit_some h1
  have hi := treeLoop_induct (P := AloneInv t)
    (fun _ _ _ _ _ _ hs _ hround => hs.round h hnd hone hk (C32_tree_shape h) hround) _
    ⟨treeInit_same h1, by simp [hf], by simp [hf], by simp [hf]⟩ h2
  refine ⟨hi.nodup, fun k hk => ?_⟩
  obtain ⟨h3, is, m, qs, h4⟩ := hi.known k hk
  exact ⟨h4.mem h _ (by simp), h3⟩

/-- **C94**: a request looks a match key up at most once on its own and at most once to be put together
with others. It looks up nothing that was not asked for, so there are at most two lookups for each
phrase match, however many stacks these make. -/
theorem C94_request {env : TreeEnv} {qs : List Subquery} {opts : MatchOpts} {ks : List FetchKey}
    (hd : Delivered qs) (h : RequestLookups env qs opts ks) :
    (ks.map fun k => (k.kg.id, k.single)).Nodup ∧ (∀ k ∈ ks, ∃ q ∈ qs, q.matchKeys = [k.kg] ∧
      q.store = k.q.store) ∧ ks.length ≤ 2 * qs.length := by
  obtain ⟨collapsed, t, h1, h2, h3⟩ := h
  obtain ⟨rep, orig, grp, hr⟩ := collapse_regroups hd h1
  have hinj : ∀ a ∈ collapsed, ∀ b ∈ collapsed, ∀ k ∈ a.matchKeys, ∀ l ∈ b.matchKeys,
      k.id = l.id → a = b ∧ k = l := by
    intro a ha b hb k hk l hl hid
    obtain ⟨i1, i2, i3⟩ := hr.orig_mem a ha k hk
    obtain ⟨i4, i5, i6⟩ := hr.orig_mem b hb l hl
    obtain ⟨e1, e2⟩ := delivered_inj hd i1 i4 (i3 ▸ List.mem_singleton_self k)
      (i6 ▸ List.mem_singleton_self l) hid
    refine ⟨hr.inj a ha b hb (groupKey_of_bare ?_), e2⟩
    rw [← i2, ← i5, e1]
  unfold stackable at h2
  obtain ⟨a1, a2⟩ := lookups_once h2 hr.nodup hinj
    (fun q hq => List.Nodup.map_on (fun k hk l hl hid => (hinj q hq q hq k hk l hl hid).2)
      (hr.keys q hq)) h3
  have a3 := C94_tree h3
  have hnd : (ks.map fun k => (k.kg.id, k.single)).Nodup := by
    unfold List.Nodup at a1 a3 ⊢
    rw [List.pairwise_map, List.pairwise_filter] at a1 a3
    rw [List.pairwise_map]
    refine (a1.and a3).imp ?_
    rintro a b ⟨h1, h2⟩ he
    rw [Prod.mk.injEq] at he
    cases hb : a.single with
    | true => exact h1 hb (he.2 ▸ hb) he.1
    | false => exact h2 (by rw [hb]; rfl) (by rw [← he.2, hb]; rfl) he.1
  have hown : ∀ k ∈ ks, ∃ q ∈ qs, q.matchKeys = [k.kg] ∧ q.store = k.q.store := by
    intro k hk
    obtain ⟨b1, b2⟩ := a2 k hk
    obtain ⟨i1, i2, i3⟩ := hr.orig_mem _ b1 _ b2
    exact ⟨_, i1, i3, store_of_bare i2⟩
  refine ⟨hnd, hown, ?_⟩
  have hsub : (ks.map fun k => (k.kg.id, k.single)) ⊆
      (qs.flatMap fun q => q.matchKeys.map KeyWithId.id).flatMap fun i => [(i, true), (i, false)] := by
    intro p hp
    obtain ⟨k, hk, rfl⟩ := List.mem_map.1 hp
    obtain ⟨q, hq, e, _⟩ := hown k hk
    refine List.mem_flatMap.2 ⟨k.kg.id, List.mem_flatMap.2 ⟨q, hq, by rw [e]; simp⟩, ?_⟩
    cases k.single <;> simp
  have hle := (List.subperm_of_subset hnd hsub).length_le
  rw [List.length_map, List.length_flatMap] at hle
  have hlen : (qs.flatMap fun q => q.matchKeys.map KeyWithId.id).length = qs.length := by
    have := hd.one
    clear * - this
    induction qs with
    | nil => rfl
    | cons q qs ih =>
      rw [List.flatMap_cons, List.length_append, List.length_map, this q (by simp),
        ih fun q hq => this q (by simp [hq]), List.length_cons]
      omega
  simp only [List.length_cons, List.length_nil, List.map_const', List.sum_replicate, hlen] at hle
  simpa [Nat.mul_comm] using hle

/-! ## Example -/

/-- Whether the lookups of a request are for these match keys, in this order. -/
def lookupsAre (qs : List Subquery) (l : List (ℕ × Bool)) : Bool :=
  match collapse qs with
  | none => false
  | some collapsed => match stackable collapsed with
    | none => false
    | some t => match treeInit (listTreeEnv false) t plainOpts with
      | none => false
      | some s₀ => match treeLoop (listTreeEnv false) t plainOpts t.arena.nodes.length s₀ with
        | none => false
        | some s => decide (s.fetched.map (fun k => (k.kg.id, k.single)) = l)

theorem lookupsAre_iff {qs : List Subquery} {l : List (ℕ × Bool)} (h : lookupsAre qs l = true) :
    ∃ ks, RequestLookups (listTreeEnv false) qs plainOpts ks ∧
      ks.map (fun k => (k.kg.id, k.single)) = l := by
  unfold lookupsAre at h
  split at h
  · cases h
  · rename_i collapsed h1
    split at h
    · cases h
    · rename_i t h2
      split at h
      · cases h
      · rename_i s₀ h3
        split at h
        · cases h
        · rename_i s h4
          exact ⟨s.fetched, ⟨collapsed, t, h1, h2, s₀, s, h3, h4, rfl⟩, of_decide_eq_true h⟩

/-- The region and the street: the street is looked up to be put below the region, and on its own. -/
example : Delivered [regionTreeMatch, streetTreeMatch] ∧
    ∃ ks, RequestLookups (listTreeEnv false) [regionTreeMatch, streetTreeMatch] plainOpts ks ∧
      ks.map (fun k => (k.kg.id, k.single)) = [(0, false), (1, true), (1, false)] := by
  exact ⟨⟨by decide +kernel, by decide +kernel, by decide +kernel⟩,
    lookupsAre_iff (by decide +kernel)⟩

end Carmen
