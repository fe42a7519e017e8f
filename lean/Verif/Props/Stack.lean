import Verif.Lemmas.StackPath

/-!
# C30, C31, C32, C34: the stack tree
-/

namespace Carmen

/-! ## C30 -/

/-- C30: on every path from the root the nodes carry phrase matches of the query, with strictly
increasing types and pairwise disjoint masks, and the last node's mask is the union of them. -/
theorem C30_paths_are_stacks {sm : ℕ} {pms : List Subquery} {t : StackTree}
    (h : stackableWith sm pms = some t) {p : List StackNode} (hp : TreePath t t.root p) :
    ∃ qs : List Subquery, p.map StackNode.pm = qs.map some ∧ (∀ q ∈ qs, q ∈ pms) ∧
      (qs.Pairwise fun a b => a.store.typeId < b.store.typeId) ∧
      (qs.Pairwise fun a b => a.mask &&& b.mask = 0) ∧
      (p.getLast?.getD t.root).mask = stackMask qs := by
  obtain ⟨K, hK⟩ := stackable_ghost h
  obtain ⟨qs, g', h1, h2, h3, h4, h5, h6, _⟩ := path_chain hK.inv hK.nodes hK.root hp
  have hm : t.root.mask = 0 := hK.same.2.1
  have hi : t.root.idx = 129 := hK.same.2.2.1
  rw [show (⟨t.root, 0, pmBins pms⟩ : Ghost).node.mask = 0 from hm,
    show (⟨t.root, 0, pmBins pms⟩ : Ghost).node.idx = 129 from hi] at h2
  have hs := (chain_iff_isStack pms qs).1 h2
  refine ⟨qs, h1, hs.mem, hs.types, hs.masks, ?_⟩
  rw [← h4, h6]
  show qs.foldl _ t.root.mask = _
  rw [hm]
  rfl

/-- C30, relevance: the relevance recorded at a leaf is the sum of the weights on the path to it. -/
theorem C30_leaf_relevance {sm : ℕ} {pms : List Subquery} {t : StackTree}
    (h : stackableWith sm pms = some t) {p : List StackNode} {m : StackNode}
    (hp : TreePath t t.root (p ++ [m])) (hm : m.isLeaf = true) {qs : List Subquery}
    (hqs : (p ++ [m]).map StackNode.pm = qs.map some) : m.maxRelev = stackRelev qs := by
  obtain ⟨K, hK⟩ := stackable_ghost h
  obtain ⟨qs', g', h1, h2, h3, h4, h5, h6, _⟩ := path_chain hK.inv hK.nodes hK.root hp
  have hq : qs' = qs := by
    have := h1.symm.trans hqs
    exact List.map_injective_iff.2 (Option.some_injective _) this
  subst hq
  rw [List.getLast?_concat, Option.getD_some] at h4
  have hc : g'.node.children = [] := by
    rw [h4]
    simpa [StackNode.isLeaf] using hm
  rcases h3.attained with ha | ⟨c, hc', _⟩
  · rw [← h4, ha, h5]
    rfl
  · rw [hc] at hc'
    exact absurd hc' List.not_mem_nil

/-- C30, the other fields: each node has the index and zoom of its phrase match, and the last node
of a path the indexes that any of the phrase matches of the path does not go with. -/
theorem C30_fields {sm : ℕ} {pms : List Subquery} {t : StackTree}
    (h : stackableWith sm pms = some t) {p : List StackNode} (hp : TreePath t t.root p)
    {qs : List Subquery} (hqs : p.map StackNode.pm = qs.map some) :
    List.Forall₂ (fun n q => n.idx = q.idx ∧ n.zoom = q.store.zoom) p qs ∧
      ∀ i, i ∈ (p.getLast?.getD t.root).bmask ↔ ∃ q ∈ qs, i ∈ q.nonOverlapping := by
  obtain ⟨K, hK⟩ := stackable_ghost h
  obtain ⟨h1, h2⟩ := path_fields hK.inv hK.nodes hK.root hp hqs
  refine ⟨h2, fun i => ?_⟩
  have hb : t.root.bmask = [] := hK.same.2.2.2.2
  rw [show (⟨t.root, 0, pmBins pms⟩ : Ghost).node = t.root from rfl, hb, List.nil_append] at h1
  rw [h1, List.mem_flatMap]

/-- C30. The root stands for no phrase match: empty mask, no forbidden index, the index 129 and
zoom 0. -/
theorem C30_root {sm : ℕ} {pms : List Subquery} {t : StackTree}
    (h : stackableWith sm pms = some t) : t.root.pm = none ∧ t.root.mask = 0 ∧
      t.root.idx = 129 ∧ t.root.zoom = 0 ∧ t.root.bmask = [] := by
  obtain ⟨K, hK⟩ := stackable_ghost h
  exact ⟨hK.same.1, hK.same.2.1, hK.same.2.2.1, hK.same.2.2.2.1, hK.same.2.2.2.2⟩

/-! ## C31 -/

/-- C31, what holds: no phrase match of a stack lists the index of the one just above it. -/
theorem C31_neighbours_partial {sm : ℕ} {pms : List Subquery} {t : StackTree}
    (h : stackableWith sm pms = some t) {p : List StackNode} (hp : TreePath t t.root p)
    {qs : List Subquery} (hqs : p.map StackNode.pm = qs.map some) :
    qs.IsChain fun a b => a.idx ∉ b.nonOverlapping := by
  obtain ⟨K, hK⟩ := stackable_ghost h
  obtain ⟨qs', g', h1, h2, _⟩ := path_chain hK.inv hK.nodes hK.root hp
  have hq : qs' = qs := by
    have := h1.symm.trans hqs
    exact List.map_injective_iff.2 (Option.some_injective _) this
  subst hq
  exact ((chain_iff (pmBins_typed pms)).1 h2).2.2.2.2.1

/-- A store of the given type and zoom without data. -/
def emptyStore (typeId zoom : ℕ) : Store := ⟨[], [], zoom, typeId, 0, [], 0⟩

/-- Three phrase matches of three types; the third does not go with the index of the first. -/
def conflictPms : List Subquery :=
  [⟨emptyStore 0 6, 1, [], lit 0.25, 1, []⟩, ⟨emptyStore 1 8, 2, [], lit 0.25, 2, []⟩,
   ⟨emptyStore 2 10, 3, [1], lit 0.25, 4, []⟩]

/-- The same conflict said by the other one of the two. -/
def reversedPms : List Subquery :=
  [⟨emptyStore 0 6, 1, [2], lit 0.25, 1, []⟩, ⟨emptyStore 1 8, 2, [], lit 0.25, 2, []⟩]

theorem exists_path_of_count {t : StackTree} {qs : List Subquery} : ∀ {n : StackNode},
    countPaths t n qs ≠ 0 → ∃ p, TreePath t n p ∧ p.map StackNode.pm = qs.map some := by
  induction qs with
  | nil => intro n _; exact ⟨[], trivial, rfl⟩
  | cons q qs ih =>
    intro n h
    unfold countPaths at h
    have : ∃ x ∈ n.children.map (fun c => match t.arena.get c with
        | some m => if m.pm = some q then countPaths t m qs else 0
        | none => 0), x ≠ 0 := by
      by_contra hc
      push Not at hc
      exact h (List.sum_eq_zero hc)
    obtain ⟨x, hx, hne⟩ := this
    obtain ⟨c, hc, rfl⟩ := List.mem_map.1 hx
    cases hg : t.arena.get c with
    | none => rw [hg] at hne; exact absurd rfl hne
    | some m =>
      rw [hg] at hne
      simp only at hne
      by_cases hm : m.pm = some q
      · rw [if_pos hm] at hne
        obtain ⟨p, h1, h2⟩ := ih hne
        exact ⟨m :: p, ⟨⟨c, hc, hg⟩, h1⟩, by rw [List.map_cons, List.map_cons, h2, hm]⟩
      · rw [if_neg hm] at hne
        exact absurd rfl hne

/-- How often the stack `qs` occurs in the tree of `pms`. -/
def occurrences (pms qs : List Subquery) : Option ℕ :=
  (stackable pms).map fun t => countPaths t t.root qs

theorem path_of_occurrences {pms qs : List Subquery} (h : occurrences pms qs = some 1) :
    ∃ t p, stackable pms = some t ∧ TreePath t t.root p ∧ p.map StackNode.pm = qs.map some := by
  unfold occurrences at h
  rw [Option.map_eq_some_iff] at h
  obtain ⟨t, ht, hc⟩ := h
  obtain ⟨p, h1, h2⟩ := exists_path_of_count (t := t) (qs := qs) (by rw [hc]; exact one_ne_zero)
  exact ⟨t, p, ht, h1, h2⟩

/-- C31 is false: a conflict is only seen between neighbours, so the third phrase match ends up in
a stack with the first one when the second is between them. -/
theorem C31_false : ∃ t p, stackable conflictPms = some t ∧ TreePath t t.root p ∧
    p.map StackNode.pm = conflictPms.map some ∧
    ∃ a ∈ conflictPms, ∃ b ∈ conflictPms, a.idx ∈ b.nonOverlapping := by
  obtain ⟨t, p, h1, h2, h3⟩ := path_of_occurrences (pms := conflictPms) (qs := conflictPms)
    (by decide +kernel)
  exact ⟨t, p, h1, h2, h3, by decide +kernel⟩

/-- C31 is false between neighbours too, when the upper one declares the conflict. -/
theorem C31_false_upper : ∃ t p, stackable reversedPms = some t ∧ TreePath t t.root p ∧
    p.map StackNode.pm = reversedPms.map some ∧
    ∃ a ∈ reversedPms, ∃ b ∈ reversedPms, a.idx ∈ b.nonOverlapping := by
  obtain ⟨t, p, h1, h2, h3⟩ := path_of_occurrences (pms := reversedPms) (qs := reversedPms)
    (by decide +kernel)
  exact ⟨t, p, h1, h2, h3, by decide +kernel⟩

/-! ## C32 -/

/-- C32: while the limit is not reached, a stack occurs in the tree once for each way of choosing
its phrase matches from the list (exactly once if the list has no repetitions). -/
theorem C32_complete {sm : ℕ} {pms : List Subquery} {t : StackTree}
    (h : stackableWith sm pms = some t) (hlim : t.arena.totalLeaves < t.arena.softMax)
    {qs : List Subquery} (hs : IsStack pms qs) :
    countPaths t t.root qs = (qs.map fun q => pms.count q).prod := by
  obtain ⟨K, hK⟩ := stackable_ghost h
  obtain ⟨h1, h2, h3⟩ := hK.full (by unfold Arena.Full; omega)
  have hm : t.root.mask = 0 := hK.same.2.1
  have hi : t.root.idx = 129 := hK.same.2.2.1
  have := countPaths_eq (qs := qs) hK.inv h1 h3 hK.root h2 (pmBins_typed pms)
  simp only at this
  rw [this, if_pos (by rw [hm, hi]; exact (chain_iff_isStack pms qs).2 hs)]
  congr 1
  exact List.map_congr_left fun q _ => (pmBins_perm pms).count_eq q

/-- C32: without repetitions in the list each stack occurs exactly once. -/
theorem C32_exactly_once {sm : ℕ} {pms : List Subquery} {t : StackTree}
    (h : stackableWith sm pms = some t) (hlim : t.arena.totalLeaves < t.arena.softMax)
    (hnd : pms.Nodup) {qs : List Subquery} (hs : IsStack pms qs) :
    countPaths t t.root qs = 1 := by
  rw [C32_complete h hlim hs]
  refine List.prod_eq_one ?_
  intro x hx
  obtain ⟨q, hq, rfl⟩ := List.mem_map.1 hx
  exact List.count_eq_one_of_mem hnd (hs.mem q hq)

/-- C32, the other direction: nothing else is in the tree, reached the limit or not. -/
theorem C32_nothing_else {sm : ℕ} {pms : List Subquery} {t : StackTree}
    (h : stackableWith sm pms = some t) {qs : List Subquery}
    (hne : countPaths t t.root qs ≠ 0) : IsStack pms qs := by
  obtain ⟨K, hK⟩ := stackable_ghost h
  obtain ⟨p, hp, hqs⟩ := exists_path_of_count hne
  obtain ⟨qs', g', h1, h2, _⟩ := path_chain hK.inv hK.nodes hK.root hp
  have hq : qs' = qs := by
    have := h1.symm.trans hqs
    exact List.map_injective_iff.2 (Option.some_injective _) this
  subst hq
  have hm : t.root.mask = 0 := hK.same.2.1
  have hi : t.root.idx = 129 := hK.same.2.2.1
  rw [show (⟨t.root, 0, pmBins pms⟩ : Ghost).node.mask = 0 from hm,
    show (⟨t.root, 0, pmBins pms⟩ : Ghost).node.idx = 129 from hi] at h2
  exact (chain_iff_isStack pms qs').1 h2

/-- No node is reached in two ways: every node is a child of at most one node, once. -/
theorem C32_tree_shape {sm : ℕ} {pms : List Subquery} {t : StackTree}
    (h : stackableWith sm pms = some t) :
    ((t.arena.nodes.map Prod.fst).flatMap StackNode.children ++ t.root.children).Nodup := by
  obtain ⟨K, hK⟩ := stackable_ghost h
  rw [← hK.nodes, List.flatMap_map]
  exact hK.nodup

/-! ## C34 -/

/-- C34: with finite weights, the maximal relevance at a node is at least the relevance of every
stack that goes through the node, the one ending there included. -/
theorem C34_max_relev_bounds {sm : ℕ} {pms : List Subquery} {t : StackTree}
    (h : stackableWith sm pms = some t) (hw : ∀ q ∈ pms, q.weight.IsFin)
    {above below : List StackNode} (hp : TreePath t t.root (above ++ below))
    {qs : List Subquery} (hqs : (above ++ below).map StackNode.pm = qs.map some) :
    stackRelev qs ≤ (above.getLast?.getD t.root).maxRelev := by
  obtain ⟨K, hK⟩ := stackable_ghost h
  rw [treePath_append] at hp
  obtain ⟨hp1, hp2⟩ := hp
  obtain ⟨qs1, g', h1, h2, h3, h4, h5, h6, h7, h8⟩ := path_chain hK.inv hK.nodes hK.root hp1
  rw [← h4] at hp2
  have hw' : ∀ q ∈ (pmBins pms).flatMap PmBin.pms, q.weight.IsFin :=
    fun q hq => hw q ((pmBins_perm pms).mem_iff.1 hq)
  have hlen : qs1.length = above.length := by
    have := congrArg List.length h1
    simpa using this.symm
  have hsplit : qs = qs1 ++ qs.drop above.length ∧
      below.map StackNode.pm = (qs.drop above.length).map some := by
    rw [List.map_append, h1] at hqs
    have e1 := congrArg (List.take above.length) hqs
    have e2 := congrArg (List.drop above.length) hqs
    rw [List.take_left' (by simpa using hlen)] at e1
    rw [List.drop_left' (by simpa using hlen)] at e2
    rw [← List.map_take] at e1
    rw [← List.map_drop] at e2
    have e3 : qs1 = qs.take above.length :=
      List.map_injective_iff.2 (Option.some_injective _) e1
    exact ⟨by rw [e3]; exact (List.take_append_drop _ _).symm, e2⟩
  have hr : g'.relev ≠ .nan := by
    rw [h5]
    exact foldl_ne_nan F64.noConfusion fun q hq => hw' q (h8 q hq)
  have hlt : ∀ c ∈ g'.node.children, c < K.length := fun c hc => h3.child_lt hc
  have := path_max hK.inv hK.nodes h3 hlt hr (fun q hq => hw' q (h7 q hq)) hp2 _ hsplit.2
  rw [h5, h4] at this
  rw [hsplit.1]
  unfold stackRelev
  rw [List.foldl_append]
  exact this

/-- C34, attained: while the limit is not reached, the maximal relevance at a node is the
relevance of a stack that goes through it (or ends there). -/
theorem C34_attained {sm : ℕ} {pms : List Subquery} {t : StackTree}
    (h : stackableWith sm pms = some t) (hlim : t.arena.totalLeaves < t.arena.softMax)
    {above : List StackNode} (hp : TreePath t t.root above) :
    ∃ below qs, TreePath t t.root (above ++ below) ∧
      (above ++ below).map StackNode.pm = qs.map some ∧
      stackRelev qs = (above.getLast?.getD t.root).maxRelev := by
  obtain ⟨K, hK⟩ := stackable_ghost h
  obtain ⟨_, _, halive⟩ := hK.full (by unfold Arena.Full; omega)
  obtain ⟨qs1, g', h1, h2, h3, h4, h5, h6, h7, h8⟩ := path_chain hK.inv hK.nodes hK.root hp
  obtain ⟨below, qs2, f1, f2, f3⟩ := path_attained hK.inv halive K.length g' h3
    fun c hc => h3.child_lt hc
  refine ⟨below, qs1 ++ qs2, treePath_append.2 ⟨hp, h4 ▸ f1⟩, ?_, ?_⟩
  · rw [List.map_append, List.map_append, h1, f2]
  · rw [← h4, ← f3, h5]
    unfold stackRelev
    rw [List.foldl_append]

/-- C34 needs weights that are numbers: a phrase match whose weight is not a number is stacked, but
its relevance does not reach the root. -/
theorem C34_nan_weight : ∃ pms t p, stackable pms = some t ∧ TreePath t t.root p ∧
    p.map StackNode.pm = pms.map some ∧ t.root.maxRelev < stackRelev pms := by
  have h : occurrences [⟨emptyStore 0 6, 1, [], .nan, 1, []⟩]
      [⟨emptyStore 0 6, 1, [], .nan, 1, []⟩] = some 1 := by decide +kernel
  obtain ⟨t, p, h1, h2, h3⟩ := path_of_occurrences h
  refine ⟨_, t, p, h1, h2, h3, ?_⟩
  have h4 : ((stackable [⟨emptyStore 0 6, 1, [], .nan, 1, []⟩]).map fun t => t.root.maxRelev) =
      some 0 := by decide +kernel
  rw [h1, Option.map_some, Option.some.injEq] at h4
  rw [h4]
  decide +kernel

/-! ## Non-vacuity -/

/-- The limit is not reached; the stack of all three is there, the conflicting pair is not. -/
example : (stackable conflictPms).map (fun t => (t.arena.totalLeaves, t.root.maxRelev)) =
    some (3, lit 0.75) ∧
    occurrences conflictPms conflictPms = some 1 ∧
    occurrences conflictPms (conflictPms.take 2) = some 1 ∧
    occurrences conflictPms [conflictPms[0], conflictPms[2]] = some 0 := by decide +kernel

example : IsStack conflictPms conflictPms :=
  ⟨fun _ h => h, by decide +kernel, by decide +kernel, by decide +kernel, by decide +kernel⟩

example : ∀ q ∈ conflictPms, q.weight.IsFin := by
  intro q hq
  simp only [conflictPms, List.mem_cons, List.not_mem_nil, or_false] at hq
  have h : (lit 0.25).IsFin := by decide +kernel
  rcases hq with rfl | rfl | rfl <;> exact h

/-- A repeated phrase match is stacked twice. -/
example : occurrences (conflictPms[0] :: conflictPms) conflictPms = some 2 := by decide +kernel

end Carmen
