import Verif.Spec.Collapse
import Verif.Lemmas.HMap
import Verif.Props.TreeCoalesce

/-!
# C47: collapsing phrase matches
-/

namespace Carmen
open Spec

/-- The match keys of a group that the code keeps: all of the first phrase match, and the first one
of each later one. -/
def keptKeys (q : Subquery) (later : List Subquery) : List KeyWithId :=
  q.matchKeys ++ later.filterMap fun p => p.matchKeys.head?

/-- The state of the loop after some phrase matches. -/
structure CollapseInv (qs : List Subquery) (m : HMap (F64 × ℕ × ℕ) Subquery) : Prop where
  wf : HMap.Wf m
  keys : ∀ p ∈ m, p.1 = p.2.groupKey
  same : ∀ k, k ∈ m.map Prod.fst ↔ k ∈ groupKeys qs
  order : (m.map Prod.fst).Pairwise fun a b => (groupKeys qs).idxOf a < (groupKeys qs).idxOf b
  made : ∀ p ∈ m, ∃ q later, groupOf p.1 qs = q :: later ∧
    p.2 = { q with matchKeys := keptKeys q later }

theorem idxOf_append_lt {α : Type} [BEq α] [LawfulBEq α] {l l' : List α} {a b : α} (ha : a ∈ l)
    (hb : b ∈ l ++ l') (h : b ∉ l ∨ l.idxOf a < l.idxOf b) :
    (l ++ l').idxOf a < (l ++ l').idxOf b := by
  rw [List.idxOf_append_of_mem ha]
  by_cases hb' : b ∈ l
  · rw [List.idxOf_append_of_mem hb']
    exact h.resolve_left (fun h => h hb')
  · rw [List.idxOf_append_of_notMem hb']
    exact (List.idxOf_lt_length_of_mem ha).trans_le (Nat.le_add_right _ _)

theorem groupOf_concat {k : F64 × ℕ × ℕ} {qs : List Subquery} {q : Subquery} :
    groupOf k (qs ++ [q]) = groupOf k qs ++ if q.groupKey = k then [q] else [] := by
  unfold groupOf
  rw [List.filter_append, List.filter_singleton]
  unfold Subquery.groupKey
  split_ifs <;> simp_all

theorem groupOf_nil {k : F64 × ℕ × ℕ} {qs : List Subquery} (h : k ∉ groupKeys qs) :
    groupOf k qs = [] := by
  unfold groupOf
  rw [List.filter_eq_nil_iff]
  intro q hq hk
  rw [decide_eq_true_eq] at hk
  exact h (hk ▸ List.mem_map_of_mem hq)

theorem groupKeys_concat {qs : List Subquery} {q : Subquery} :
    groupKeys (qs ++ [q]) = groupKeys qs ++ [q.groupKey] := by
  unfold groupKeys
  rw [List.map_append]
  rfl

theorem keys_upsert_mem {K V : Type} [DecidableEq K] {k : K} {d : V} {f : V → V} {m : HMap K V}
    (h : k ∈ m.map Prod.fst) : (HMap.upsert k d f m).map Prod.fst = m.map Prod.fst := by
  induction m with
  | nil => cases h
  | cons p t ih =>
    obtain ⟨k', v⟩ := p
    unfold HMap.upsert
    split_ifs with hk
    · rfl
    · rw [List.map_cons, List.map_cons, ih ((List.mem_cons.1 h).resolve_left hk)]

theorem CollapseInv.step {qs : List Subquery} {m m' : HMap (F64 × ℕ × ℕ) Subquery} {q : Subquery}
    (hi : CollapseInv qs m) (h : collapseStep m q = some m') : CollapseInv (qs ++ [q]) m' := by
  unfold collapseStep at h
  cases hf : HMap.find q.groupKey m with
  | none =>
    rw [hf] at h
    have h := Option.some.inj h
    subst h
    have hnew : q.groupKey ∉ m.map Prod.fst := by
      rw [HMap.mem_keys_iff, hf]
      simp
    have hnew' : q.groupKey ∉ groupKeys qs := fun h => hnew ((hi.same _).2 h)
    refine ⟨?_, ?_, ?_, ?_, ?_⟩
    · unfold HMap.Wf
      rw [List.map_append, List.map_singleton, List.nodup_append]
      refine ⟨hi.wf, List.nodup_singleton _, ?_⟩
      intro a ha b hb hab
      rw [List.mem_singleton] at hb
      rw [hab, hb] at ha
      exact hnew ha
    · intro p hp
      rcases List.mem_append.1 hp with hp | hp
      · exact hi.keys p hp
      · rw [List.mem_singleton] at hp
        rw [hp]
    · intro k
      rw [List.map_append, List.mem_append, groupKeys_concat, List.mem_append, hi.same k]
      rfl
    · rw [List.map_append, groupKeys_concat]
      refine List.pairwise_append.2 ⟨?_, List.pairwise_singleton _ _, ?_⟩
      · refine hi.order.imp_of_mem ?_
        intro a b ha hb hab
        exact idxOf_append_lt ((hi.same a).1 ha)
          (List.mem_append_left _ ((hi.same b).1 hb)) (Or.inr hab)
      · intro a ha b hb
        rw [List.map_singleton, List.mem_singleton] at hb
        subst hb
        exact idxOf_append_lt ((hi.same a).1 ha) (List.mem_append_right _ (List.mem_singleton_self _))
          (Or.inl hnew')
    · intro p hp
      rcases List.mem_append.1 hp with hp | hp
      · obtain ⟨q', later, h1, h2⟩ := hi.made p hp
        refine ⟨q', later, ?_, h2⟩
        rw [groupOf_concat, h1, if_neg, List.append_nil]
        intro he
        exact hnew (he ▸ List.mem_map_of_mem hp)
      · rw [List.mem_singleton] at hp
        subst hp
        refine ⟨q, [], ?_, ?_⟩
        · rw [groupOf_concat, groupOf_nil hnew', if_pos rfl, List.nil_append]
        · show q = { q with matchKeys := keptKeys q [] }
          unfold keptKeys
          rw [List.filterMap_nil, List.append_nil]
  | some old =>
    rw [hf] at h
    obtain ⟨kg, hkg, h⟩ := Option.map_eq_some_iff.1 h
    subst h
    have hold : q.groupKey ∈ m.map Prod.fst := by
      rw [HMap.mem_keys_iff, hf]
      rfl
    have hold' : q.groupKey ∈ groupKeys qs := (hi.same _).1 hold
    have hmem : ∀ p ∈ HMap.upsert q.groupKey q
        (fun old => { old with matchKeys := old.matchKeys ++ [kg] }) m,
        (p ∈ m ∧ p.1 ≠ q.groupKey) ∨
        (p.1 = q.groupKey ∧ p.2 = { old with matchKeys := old.matchKeys ++ [kg] }) := by
      intro p hp
      have h1 := HMap.find_of_mem (HMap.wf_upsert hi.wf) hp
      rw [HMap.find_upsert, hf] at h1
      by_cases hk : p.1 = q.groupKey
      · rw [if_pos hk] at h1
        exact Or.inr ⟨hk, (Option.some.inj h1).symm⟩
      · rw [if_neg hk] at h1
        exact Or.inl ⟨HMap.mem_of_find h1, hk⟩
    have hkey : (q.groupKey, old) ∈ m := HMap.mem_of_find hf
    refine ⟨HMap.wf_upsert hi.wf, ?_, ?_, ?_, ?_⟩
    · intro p hp
      rcases hmem p hp with ⟨h1, _⟩ | ⟨h1, h2⟩
      · exact hi.keys p h1
      · rw [h1, h2]
        exact hi.keys _ hkey
    · intro k
      rw [keys_upsert_mem hold, groupKeys_concat, List.mem_append, hi.same k]
      constructor
      · exact Or.inl
      · rintro (h | h)
        · exact h
        · rw [List.mem_singleton] at h
          rwa [h]
    · rw [keys_upsert_mem hold, groupKeys_concat]
      refine hi.order.imp_of_mem ?_
      intro a b ha hb hab
      exact idxOf_append_lt ((hi.same a).1 ha)
        (List.mem_append_left _ ((hi.same b).1 hb)) (Or.inr hab)
    · intro p hp
      rcases hmem p hp with ⟨h1, h2⟩ | ⟨h1, h2⟩
      · obtain ⟨q', later, h3, h4⟩ := hi.made p h1
        refine ⟨q', later, ?_, h4⟩
        rw [groupOf_concat, h3, if_neg (Ne.symm h2), List.append_nil]
      · obtain ⟨q', later, h3, h4⟩ := hi.made _ hkey
        refine ⟨q', later ++ [q], ?_, ?_⟩
        · rw [groupOf_concat, h1, h3, if_pos rfl, List.cons_append]
        · have h4 : old = { q' with matchKeys := keptKeys q' later } := h4
          rw [h2, h4]
          unfold keptKeys
          rw [List.filterMap_append, List.filterMap_cons, hkg, List.append_assoc]
          rfl

theorem collapseInv_foldl {qs rest : List Subquery} {m m' : HMap (F64 × ℕ × ℕ) Subquery}
    (hi : CollapseInv qs m) (h : rest.foldlM collapseStep m = some m') :
    CollapseInv (qs ++ rest) m' := by
  induction rest generalizing qs m with
  | nil =>
    have h : m = m' := Option.some.inj h
    rw [List.append_nil, ← h]
    exact hi
  | cons q rest ih =>
    rw [List.foldlM_cons, Option.bind_eq_bind] at h
    obtain ⟨m₁, h1, h2⟩ := Option.bind_eq_some_iff.1 h
    rw [List.append_cons]
    exact ih (hi.step h1) h2

/-- C47, what the code does: as claimed, but of the later phrase matches of a group only the first
match key is kept. -/
theorem C47_kept_keys_partial {qs out : List Subquery} (h : collapse qs = some out) :
    CollapsedTo keptKeys qs out := by
  unfold collapse at h
  obtain ⟨m, hm, rfl⟩ := Option.map_eq_some_iff.1 h
  have hi := collapseInv_foldl (qs := []) (m := [])
    ⟨HMap.wf_nil, fun _ h => (by cases h), fun _ => iff_of_false (by simp) (by simp [groupKeys]),
      .nil, fun _ h => (by cases h)⟩ hm
  rw [List.nil_append] at hi
  have hk : groupKeys (m.map Prod.snd) = m.map Prod.fst := by
    unfold groupKeys
    rw [List.map_map]
    exact List.map_congr_left fun p hp => (hi.keys p hp).symm
  refine ⟨?_, ?_, ?_⟩
  · intro k
    rw [hk]
    exact hi.same k
  · rw [hk]
    exact hi.order
  · intro o ho
    obtain ⟨p, hp, rfl⟩ := List.mem_map.1 ho
    have := hi.made p hp
    rwa [hi.keys p hp] at this

theorem mem_groupOf {k : F64 × ℕ × ℕ} {qs : List Subquery} {q : Subquery} (h : q ∈ groupOf k qs) :
    q ∈ qs := (List.mem_filter.1 h).1

/-- C47, where every phrase match has one match key, as all that come from JavaScript do: every match
key is conserved. -/
theorem C47_conserves_partial {qs out : List Subquery} (h : collapse qs = some out)
    (h1 : ∀ q ∈ qs, q.matchKeys.length = 1) : CollapsedTo allKeys qs out := by
  have hc := C47_kept_keys_partial h
  refine ⟨hc.same, hc.order, ?_⟩
  intro o ho
  obtain ⟨q, later, h2, h3⟩ := hc.made o ho
  refine ⟨q, later, h2, ?_⟩
  have hlater : ∀ p ∈ later, p ∈ qs := fun p hp =>
    mem_groupOf (h2 ▸ List.mem_cons_of_mem _ hp)
  have : keptKeys q later = allKeys q later := by
    unfold keptKeys allKeys
    rw [List.flatMap_cons]
    congr 1
    clear h2 h3
    induction later with
    | nil => rfl
    | cons p t ih =>
      obtain ⟨k, hk⟩ := List.length_eq_one_iff.1 (h1 p (hlater p (by simp)))
      rw [List.filterMap_cons, hk, List.head?_cons, List.flatMap_cons, hk,
        ih fun p hp => hlater p (List.mem_cons_of_mem _ hp)]
      rfl
  rw [h3, this]

/-- Collapsing does not panic when every phrase match has a match key. -/
theorem C47_returns {qs : List Subquery} (h : ∀ q ∈ qs, q.matchKeys ≠ []) :
    ∃ out, collapse qs = some out := by
  unfold collapse
  suffices ∀ m, ∃ m', qs.foldlM collapseStep m = some m' by
    obtain ⟨m', hm⟩ := this []
    exact ⟨_, by rw [hm]; rfl⟩
  induction qs with
  | nil => exact fun m => ⟨m, rfl⟩
  | cons q t ih =>
    intro m
    have hs : ∃ m', collapseStep m q = some m' := by
      unfold collapseStep
      split
      · exact ⟨_, rfl⟩
      · cases hk : q.matchKeys with
        | nil => exact absurd hk (h q (by simp))
        | cons k ks => exact ⟨_, rfl⟩
    obtain ⟨m', hm'⟩ := hs
    obtain ⟨m'', hm''⟩ := ih (fun q hq => h q (List.mem_cons_of_mem _ hq)) m'
    exact ⟨m'', by rw [List.foldlM_cons, hm', Option.bind_eq_bind, Option.bind_some, hm'']⟩

/-- Collapsing changes nothing if no two are of the same group. -/
theorem collapse_distinct {out : List Subquery} (hnd : (groupKeys out).Nodup) :
    collapse out = some out := by
  have key : ∀ (rest : List Subquery) (m : HMap (F64 × ℕ × ℕ) Subquery),
      (m.map Prod.fst ++ groupKeys rest).Nodup →
      rest.foldlM collapseStep m = some (m ++ rest.map fun q => (q.groupKey, q)) := by
    intro rest
    induction rest with
    | nil =>
      intro m _
      rw [List.map_nil, List.append_nil]
      rfl
    | cons q t ih =>
      intro m hm
      have hm' : (m.map Prod.fst ++ (q.groupKey :: groupKeys t)).Nodup := hm
      have hf : HMap.find q.groupKey m = none := by
        by_contra hne
        have := HMap.mem_keys_iff.2 (Option.isSome_iff_ne_none.2 hne)
        exact (List.nodup_append.1 hm').2.2 _ this _ (by simp) rfl
      have hs : collapseStep m q = some (m ++ [(q.groupKey, q)]) := by
        unfold collapseStep
        rw [hf]
      rw [List.foldlM_cons, hs, Option.bind_eq_bind, Option.bind_some, ih, List.append_assoc]
      · rfl
      · rw [List.map_append, List.append_assoc]
        exact hm'
  unfold collapse
  rw [key out [] (by simpa using hnd), Option.map_some, List.nil_append, List.map_map]
  congr 1
  exact List.map_id _

/-- C47: collapsing twice changes nothing. -/
theorem C47_idempotent {qs out : List Subquery} (h : collapse qs = some out) :
    collapse out = some out := by
  have hc := C47_kept_keys_partial h
  exact collapse_distinct (hc.order.imp fun h he => by
    rw [he] at h
    exact lt_irrefl _ h)

/-- A phrase match with two match keys in the group of another one. -/
def twoKeyPms : List Subquery :=
  [regionTreeMatch, { regionTreeMatch with
    matchKeys := [⟨⟨.exact 2, 1⟩, false, 7, 5⟩, ⟨⟨.exact 3, 1⟩, false, 8, 5⟩] }]

/-- C47 is false: the match key with id 8 is lost. -/
theorem C47_false : ∃ out, collapse twoKeyPms = some out ∧ ¬ CollapsedTo allKeys twoKeyPms out := by
  refine ⟨(collapse twoKeyPms).getD [], by decide +kernel, ?_⟩
  intro h
  have hev : ((collapse twoKeyPms).getD []).any (fun o => decide (o.matchKeys.length = 2) &&
      decide (groupOf (o.weight, o.idx, o.mask) twoKeyPms = twoKeyPms)) = true := by decide +kernel
  obtain ⟨o, ho, hev⟩ := List.any_eq_true.1 hev
  rw [Bool.and_eq_true, decide_eq_true_eq, decide_eq_true_eq] at hev
  obtain ⟨q, later, h1, h2⟩ := h.made o ho
  rw [hev.2] at h1
  have : (allKeys q later).length = 3 := by
    unfold allKeys
    rw [← h1]
    decide +kernel
  have h3 : o.matchKeys = allKeys q later := by rw [h2]
  rw [← h3, hev.1] at this
  cases this

/-- A phrase match without match keys in the group of another one panics. -/
theorem C47_no_keys_panics : collapse [regionTreeMatch, { regionTreeMatch with matchKeys := [] }] =
    none := by decide +kernel

/-- Three phrase matches, two of which belong together. -/
example : ((collapse [regionTreeMatch, streetTreeMatch, { regionTreeMatch with
    matchKeys := [⟨⟨.exact 2, 1⟩, false, 7, 5⟩] }]).map fun out =>
      out.map fun q => (q.idx, q.matchKeys.map (·.id))) = some [(0, [0, 7]), (1, [1])] := by
  decide +kernel

end Carmen
