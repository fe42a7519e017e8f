import Verif.Props.Quotas
import Verif.Props.NoPanic

/-!
# C79: what the limit of stacks can cost

The theorems are `C79_complete`, `C79_few`, `C79_sound`, `C79_alone` and the ones from JavaScript; here
is a case where 2000 stacks keep out another one and what it would find is lost, and one where there
are more than 2000 stacks but none of them keeps out the best.
-/

namespace Carmen
open Spec Store

/-! ## 2000 stacks that find nothing -/

/-- A region, a street in it, and something below that finds nothing. -/
def keptOut : List Subquery :=
  [{ regionTreeMatch with idx := 1, weight := lit 0.1, matchKeys := [⟨⟨.exact 1, 1⟩, false, 5001, 5⟩] },
   { streetTreeMatch with idx := 2, weight := lit 0.2, matchKeys := [⟨⟨.exact 2, 1⟩, false, 5002, 5⟩] },
   ⟨emptyStore 2 10, 3, [], lit 0.15, 4, [⟨⟨.exact 1, 1⟩, false, 5003, 5⟩]⟩]

/-- Phrase matches of weight 0.45 that find nothing, and these three. -/
def crowdRequest (n : ℕ) : List Subquery := limitPms n keptOut

theorem crowdRequest_mem {n : ℕ} {q : Subquery} (h : q ∈ crowdRequest n) :
    (∃ i < n, q = tiedMatch i) ∨ q ∈ keptOut := by
  rcases List.mem_append.1 h with h | h
  · obtain ⟨i, hi, rfl⟩ := List.mem_map.1 h
    exact Or.inl ⟨i, List.mem_range.1 hi, rfl⟩
  · exact Or.inr h

theorem crowdRequest_groups (n : ℕ) : (groupKeys (crowdRequest n)).Nodup := by
  show (List.map _ (_ ++ _)).Nodup
  rw [List.map_append, List.map_map, List.nodup_append]
  refine ⟨List.nodup_range.map fun i j h => ?_, by decide +kernel, ?_⟩
  · have : i + 10 = j + 10 := congrArg (fun x : F64 × ℕ × ℕ => x.2.1) h
    omega
  · rintro a ha b hb rfl
    obtain ⟨i, -, rfl⟩ := List.mem_map.1 ha
    have h1 : ∀ b ∈ keptOut.map Subquery.groupKey, b.2.1 < 10 := by decide +kernel
    have h2 : i + 10 < 10 := h1 _ hb
    omega

theorem crowdRequest_delivered {n : ℕ} (hn : n ≤ 5000) : Delivered (crowdRequest n) where
  one q hq := by
    rcases crowdRequest_mem hq with ⟨i, -, rfl⟩ | hk
    · rfl
    · have : ∀ q ∈ keptOut, q.matchKeys.length = 1 := by decide +kernel
      exact this q hk
  ids := by
    show (List.flatMap _ (_ ++ _)).Nodup
    rw [List.flatMap_append, List.flatMap_map, List.nodup_append]
    have e : (List.range n).flatMap (fun i => (tiedMatch i).matchKeys.map KeyWithId.id) =
        List.range n := List.flatMap_pure_eq_map (f := id) .. |>.trans (List.map_id _)
    rw [e]
    refine ⟨List.nodup_range, by decide +kernel, ?_⟩
    rintro a ha b hb rfl
    have h1 : ∀ b ∈ keptOut.flatMap (fun q => q.matchKeys.map KeyWithId.id), 5000 ≤ b := by
      decide +kernel
    have := h1 a hb
    have := List.mem_range.1 ha
    omega
  index a ha b hb h := by
    have hk : ∀ q ∈ keptOut, q.idx < 10 := by decide +kernel
    rcases crowdRequest_mem ha with ⟨i, -, rfl⟩ | ha <;> rcases crowdRequest_mem hb with ⟨j, -, rfl⟩ | hb
    · exact ⟨rfl, rfl⟩
    · have h1 := hk b hb
      have h2 : i + 10 = b.idx := h
      omega
    · have h1 := hk a ha
      have h2 : a.idx = j + 10 := h
      omega
    · have : ∀ a ∈ keptOut, ∀ b ∈ keptOut, a.idx = b.idx →
          a.store = b.store ∧ a.nonOverlapping = b.nonOverlapping := by decide +kernel
      exact this a ha b hb h

theorem emptyStore_fit (type zoom : ℕ) (h : zoom ≤ 16) : StoreFit (emptyStore type zoom) where
  built := ⟨by simp [emptyStore, SMap.Sorted], by simp [emptyStore], by simp [emptyStore]⟩
  radius := by simp [emptyStore]
  zoom := h

theorem crowdRequest_fit {n : ℕ} (hn : n ≤ 5000) : RequestFit false (crowdRequest n) plainOpts := by
  refine ⟨?_, ?_, ?_, ⟨by simp [plainOpts], by simp [plainOpts]⟩, by decide, nofun, nofun⟩
  · intro q hq
    rcases crowdRequest_mem hq with ⟨i, -, rfl⟩ | hq
    · exact emptyStore_fit 0 6 (by omega)
    · simp only [keptOut, List.mem_cons, List.not_mem_nil, or_false] at hq
      rcases hq with rfl | rfl | rfl
      · exact regionTreeStore_fit
      · exact streetTreeStore_fit
      · exact emptyStore_fit 2 10 (by omega)
  · intro q hq
    rcases crowdRequest_mem hq with ⟨i, -, rfl⟩ | hq
    · simp [tiedMatch]
    · have : ∀ q ∈ keptOut, q.matchKeys ≠ [] := by decide +kernel
      exact this q hq
  · intro q hq k hk
    rcases crowdRequest_mem hq with ⟨i, hi, rfl⟩ | hq
    · rw [List.mem_singleton.1 hk]
      exact ⟨by show i < 2 ^ 32; omega, nofun, nofun⟩
    · have : ∀ q ∈ keptOut, ∀ k ∈ q.matchKeys, k.key.phrase.start < 2 ^ 32 := by decide +kernel
      exact ⟨this q hq k hk, nofun, nofun⟩

theorem crowdRequest_weights (n : ℕ) : ∀ q ∈ crowdRequest n, q.weight.IsFin ∧ q.weight ≤ 1 := by
  intro q hq
  rcases crowdRequest_mem hq with ⟨i, -, rfl⟩ | hq
  · show (lit 0.45).IsFin ∧ lit 0.45 ≤ 1
    decide +kernel
  · have : ∀ q ∈ keptOut, q.weight.IsFin ∧ q.weight ≤ 1 := by decide +kernel
    exact this q hq

theorem crowdRequest_zooms (n : ℕ) : ZoomsAscend (crowdRequest n) := by
  have h1 : ∀ a ∈ keptOut, a.store.typeId = 0 ∧ a.store.zoom = 6 ∨
      0 < a.store.typeId ∧ 6 ≤ a.store.zoom ∧ a.store.zoom < 22 := by decide +kernel
  have h2 : ∀ a ∈ keptOut, ∀ b ∈ keptOut, a.store.typeId < b.store.typeId →
      a.store.zoom ≤ b.store.zoom ∧ b.store.zoom < a.store.zoom + 16 := by decide +kernel
  intro a ha b hb h
  rcases crowdRequest_mem ha with ⟨i, -, rfl⟩ | ha <;> rcases crowdRequest_mem hb with ⟨j, -, rfl⟩ | hb
  · exact absurd h (lt_irrefl _)
  · have h0 : 0 < b.store.typeId := h
    rcases h1 b hb with h | h
    · omega
    · exact ⟨h.2.1, h.2.2⟩
  · exact absurd h (Nat.not_lt_zero _)
  · exact h2 a ha b hb h

theorem crowdRequest_positive (n : ℕ) : WeightsPositive (crowdRequest n) := by
  have h1 : WeightsPositive keptOut := by unfold WeightsPositive; decide +kernel
  have h2 : WeightsPositive [tiedMatch 0] := by unfold WeightsPositive; decide +kernel
  intro q hq
  rcases crowdRequest_mem hq with ⟨i, -, rfl⟩ | hq
  · exact h2 (tiedMatch 0) (List.mem_singleton_self _)
  · exact h1 q hq

/-- Phrase matches of the types 0, 1 and 2. -/
theorem fewTypes_of_three {pms : List Subquery} (hw : ∀ q ∈ pms, q.weight ≤ 1)
    (h : ∀ q ∈ pms, q.store.typeId < 3) : FewTypes pms where
  weights := hw
  types := by
    have := (List.nodup_dedup (pms.map fun q => q.store.typeId)).subperm (l₂ := List.range 3) (by
      intro x hx
      obtain ⟨q, hq, rfl⟩ := List.mem_map.1 (List.mem_dedup.1 hx)
      exact List.mem_range.2 (h q hq))
    have := this.length_le
    rw [List.length_range] at this
    omega

theorem crowdRequest_types (n : ℕ) : FewTypes (crowdRequest n) := by
  refine fewTypes_of_three (fun q hq => (crowdRequest_weights n q hq).2) fun q hq => ?_
  have h1 : ∀ a ∈ keptOut, a.store.typeId < 3 := by decide +kernel
  rcases crowdRequest_mem hq with ⟨i, -, rfl⟩ | hq
  · exact Nat.zero_lt_succ _
  · exact h1 q hq

/-- Nothing is found in an empty store. -/
theorem emptyStore_query {env : Env} {type zoom i l : ℕ} {o : MatchOpts} {limit : ℕ}
    {grids : List MatchEntry}
    (h : env.query (emptyStore type zoom) ⟨.exact i, l⟩ o limit = some grids) : grids = [] := by
  unfold Env.query getMatching at h
  obtain ⟨rows, h1, h⟩ := Option.bind_eq_some_iff.1 h
  obtain ⟨q, h2, h⟩ := Option.bind_eq_some_iff.1 h
  unfold queryRows at h1
  obtain ⟨plan, -, h1⟩ := Option.bind_eq_some_iff.1 h1
  simp only [emptyStore, List.dropWhile_nil, takeMatching, Option.some.injEq] at h1
  subst h1
  simp only [fillQueue, Option.some.injEq] at h2
  subst h2
  simp only [Option.some.injEq] at h
  subst h
  rfl

theorem crowd_tree {n : ℕ} (hn : n ≠ 0) :
    stackableWith n (crowdRequest n) = some ⟨tiedRoot n, tiedArena n n⟩ :=
  limit_tree hn ⟨by decide +kernel, ⟨rfl, rfl, rfl⟩, by decide +kernel⟩

/-- In the tree there are only the phrase matches that find nothing. -/
theorem crowd_nothing {env : TreeEnv} {n : ℕ} (hn : n ≠ 0) (hn' : n ≤ 5000) {opts : MatchOpts} {out : List Context}
    (hout : treeCoalesce env ⟨tiedRoot n, tiedArena n n⟩ opts = some out) : out = [] := by
  by_contra hne
  obtain ⟨c, rest, rfl⟩ := List.exists_cons_of_ne_nil hne
  have hd := crowdRequest_delivered hn'
  obtain ⟨ls, hls⟩ := C41_genuine (crowd_tree hn) (fun a ha b hb k hk l hl h => by
    obtain ⟨rfl, rfl⟩ := delivered_inj hd ha hb hk hl h
    exact ⟨rfl, rfl, rfl⟩) (Or.inr (crowdRequest_zooms n)) hout c (by simp)
  obtain ⟨l, lt, rfl⟩ := List.exists_cons_of_ne_nil hls.ne
  obtain ⟨⟨i, hi, hget⟩, -⟩ := hls.path
  have hm := List.mem_of_getElem? (Arena.get_eq_some.1 hget)
  obtain ⟨j, _, he⟩ := List.mem_map.1 hm
  have hl : l.node.pm = some (tiedMatch j) := by
    rw [← show tiedLeaf j = l.node from (Prod.ext_iff.1 he).1]
    rfl
  obtain ⟨limit, ha⟩ : ∃ limit, l.Answers env.toEnv opts limit := by
    by_cases ha : Alone (l :: lt)
    · exact ⟨80, hls.answers l (by simp) 80 (fun _ => rfl) (fun hn => absurd ha hn)⟩
    · exact ⟨100000, hls.answers l (by simp) 100000 (fun hn => absurd hn ha) (fun _ => rfl)⟩
  obtain ⟨a1, a2, o, grids, -, a3, a4⟩ := ha
  rw [hl] at a1
  have hq : l.q = tiedMatch j := (Option.some.inj a1).symm
  rw [hq] at a2 a3
  rw [List.mem_singleton.1 a2] at a3
  rw [emptyStore_query a3] at a4
  cases a4

/-- The hits for the region and the street. -/
theorem keptOut_hits : ((keptOut[0]?.bind (hitAt · 0)).bind fun a =>
    (keptOut[1]?.bind (hitAt · 0)).map fun b =>
      (a.q.store.bboxes.any fun bb => decide (bb.minX ≤ a.grid.entry.x ∧
        a.grid.entry.x ≤ bb.maxX ∧ bb.minY ≤ a.grid.entry.y ∧ a.grid.entry.y ≤ bb.maxY)) &&
      (b.q.store.bboxes.any fun bb => decide (bb.minX ≤ b.grid.entry.x ∧
        b.grid.entry.x ≤ bb.maxX ∧ bb.minY ≤ b.grid.entry.y ∧ b.grid.entry.y ≤ bb.maxY)) &&
      decide (a.tile.1 ≤ b.tile.1 ∧ a.tile.2.1 = b.tile.2.1 / 2 ^ (b.tile.1 - a.tile.1) ∧
        a.tile.2.2 = b.tile.2.2 / 2 ^ (b.tile.1 - a.tile.1)) &&
      decide (a.q ∈ keptOut) && decide (b.q ∈ keptOut) &&
      decide (a.q.store.typeId < b.q.store.typeId) && decide (a.q.mask &&& b.q.mask = 0) &&
      decide (a.q.idx ∉ b.q.nonOverlapping) && decide (129 ∉ a.q.nonOverlapping) &&
      decide (a.q.store.zoom < 14) && decide (b.q.store.zoom < 14) &&
      decide (a.kg.key.phrase = .exact 1) && decide (b.kg.key.phrase = .exact 2)) = some true := by
  decide +kernel

/-- Lookups of a single phrase below zoom 14 count against no quota. -/
theorem unlimited_exact {h : Hit} {i : ℕ} (hz : h.q.store.zoom < 14) (hp : h.kg.key.phrase = .exact i) :
    Unlimited (h.q, h.kg) := by
  refine ⟨?_, fun hh => ?_⟩
  · rintro ⟨⟨x, y, hxy, -⟩, -⟩
    simp only at hxy
    rw [hp] at hxy
    cases hxy
  · have := hh.1
    simp only at this
    omega

/-- C79: the limit does cost results. With 2000 other phrase matches of weight 0.45, which find nothing, a
street in a region, of weights 0.1 and 0.2, is lost, and nothing is returned. -/
theorem C79_crowd_needed : ∃ qs hs, Delivered qs ∧ FewTypes qs ∧ ZoomsAscend qs ∧ WeightsPositive qs ∧
    stackAndCoalesce (listTreeEnv false) qs plainOpts = some [] ∧
    HitsStackUp (listTreeEnv false).toEnv plainOpts qs hs ∧ (∀ h ∈ hs, Unlimited (h.q, h.kg)) ∧
    ∃ c, ContextOf (listTreeEnv false).toEnv plainOpts qs hs c := by
  obtain ⟨a, ha, hev⟩ := Option.bind_eq_some_iff.1 keptOut_hits
  obtain ⟨b, hb, hev⟩ := Option.map_eq_some_iff.1 hev
  simp only [Bool.and_eq_true, decide_eq_true_eq, List.any_eq_true] at hev
  obtain ⟨⟨⟨⟨⟨⟨⟨⟨⟨⟨⟨⟨e2, e3⟩, e4⟩, s1⟩, s2⟩, s3⟩, s4⟩, s5⟩, s6⟩, z1⟩, z2⟩, p1⟩, p2⟩ := hev
  obtain ⟨qa, hqa, ha⟩ := Option.bind_eq_some_iff.1 ha
  obtain ⟨qb, hqb, hb⟩ := Option.bind_eq_some_iff.1 hb
  obtain ⟨a1, a2⟩ := hitAt_first ha
  obtain ⟨b1, b2⟩ := hitAt_first hb
  have hin : ∀ {n : ℕ} {q : Subquery}, q ∈ keptOut → q ∈ crowdRequest n :=
    fun h => List.mem_append.2 (Or.inr h)
  have key : ∀ n : ℕ, n ≠ 0 → n ≤ 5000 → n = leafSoftMax → ∃ qs hs, Delivered qs ∧ FewTypes qs ∧
      ZoomsAscend qs ∧ WeightsPositive qs ∧
      stackAndCoalesce (listTreeEnv false) qs plainOpts = some [] ∧
      HitsStackUp (listTreeEnv false).toEnv plainOpts qs hs ∧ (∀ h ∈ hs, Unlimited (h.q, h.kg)) ∧
      ∃ c, ContextOf (listTreeEnv false).toEnv plainOpts qs hs c := by
    intro n h0 h5 hn
    have hup : HitsStackUp (listTreeEnv false).toEnv plainOpts (crowdRequest n) [a, b] := by
      refine ⟨by simp, ?_, ?_, ?_, ?_, ?_⟩
      · rintro ⟨l, h, _⟩
        have := congrArg List.length h
        simp at this
      · exact ⟨by simp [hin s1, hin s2], by simpa using s3, by simpa using s4, by simpa using s5,
          by simpa using s6⟩
      · intro l hl
        rcases List.mem_cons.1 hl with rfl | hl
        · exact a2
        · rw [List.mem_singleton.1 hl]
          exact b2
      · intro l hl
        rcases List.mem_cons.1 hl with rfl | hl
        · exact e2
        · rw [List.mem_singleton.1 hl]
          exact e3
      · rw [List.isChain_cons_cons]
        exact ⟨e4, List.isChain_singleton _⟩
    obtain ⟨out, hout⟩ := C60_stack_and_coalesce (env := listTreeEnv false) (crowdRequest_fit h5) nofun
      (crowdRequest_weights n)
    have hout' := hout
    unfold stackAndCoalesce stackable at hout'
    rw [collapse_distinct (crowdRequest_groups n), ← hn] at hout'
    simp only [Option.bind_eq_bind, Option.bind_some, crowd_tree h0] at hout'
    rw [crowd_nothing h0 h5 hout'] at hout
    refine ⟨crowdRequest n, [a, b], crowdRequest_delivered h5, crowdRequest_types n,
      crowdRequest_zooms n, crowdRequest_positive n, hout, hup, ?_, hitsStackUp_context hup⟩
    intro h hh
    rcases List.mem_cons.1 hh with rfl | hh
    · exact unlimited_exact z1 p1
    · rw [List.mem_singleton.1 hh]
      exact unlimited_exact z2 p2
  exact key leafSoftMax (by unfold leafSoftMax; omega) (by unfold leafSoftMax; omega) rfl

/-- What C79 says about it: there are 2000 stacks that are at least about as good. -/
example : ∃ qs hs, HitsStackUp (listTreeEnv false).toEnv plainOpts qs hs ∧
    Crowded 2000 qs (hs.map Hit.q) := by
  obtain ⟨qs, hs, h1, h2, h3, h4, h5, h6, h7, -⟩ := C79_crowd_needed
  obtain ⟨tops, -, hall⟩ := C79_complete h1 h2 (Or.inr h3) h4 h5
  refine ⟨qs, hs, h6, ?_⟩
  rcases hall hs h6 fun h hh => (h7 h hh).room qs with ⟨c, hc, -⟩ | ⟨l, hl, h8, -⟩ | h | ⟨h, -⟩ | h
  · cases hc
  · have := hl.length_le
    rw [h8] at this
    exact absurd this (by decide)
  · obtain ⟨above, last, e, hd, -⟩ := h
    exact absurd ⟨hd.1, hd.2.1⟩ (h7 last (by rw [e]; simp)).1
  · simp at h
  · exact h

/-! ## Many stacks that keep nothing out -/

/-- A region and a street of high weight. -/
def bestPair : List Subquery := [{ regionTreeMatch with idx := 1 }, { streetTreeMatch with idx := 2 }]

/-- Phrase matches of low weight, in different indexes. -/
def lowMatch (type i : ℕ) : Subquery :=
  ⟨emptyStore type 8, 10 + 100 * type + i, [], .fin (1 / 64), type + 1,
    [⟨⟨.exact i, 1⟩, false, 10 + 100 * type + i, 5⟩]⟩

/-- Fifty of each type, and the best ones. -/
def manyRequest : List Subquery :=
  bestPair ++ (List.range 50).map (lowMatch 0) ++ (List.range 50).map (lowMatch 1)

theorem manyRequest_mem {q : Subquery} (h : q ∈ manyRequest) :
    q ∈ bestPair ∨ (∃ i, q = lowMatch 0 i) ∨ ∃ i, q = lowMatch 1 i := by
  rcases List.mem_append.1 h with h | h
  · rcases List.mem_append.1 h with h | h
    · exact Or.inl h
    · obtain ⟨i, -, rfl⟩ := List.mem_map.1 h
      exact Or.inr (Or.inl ⟨i, rfl⟩)
  · obtain ⟨i, -, rfl⟩ := List.mem_map.1 h
    exact Or.inr (Or.inr ⟨i, rfl⟩)

theorem manyRequest_type {q : Subquery} (h : q ∈ manyRequest) : q.store.typeId < 2 := by
  have h1 : ∀ q ∈ bestPair, q.store.typeId < 2 := by decide +kernel
  rcases manyRequest_mem h with h | ⟨i, rfl⟩ | ⟨i, rfl⟩
  · exact h1 q h
  · exact Nat.zero_lt_succ _
  · exact Nat.one_lt_two

/-- There are more stacks than the limit. -/
theorem manyRequest_many : ¬ FewGroupStacks 2000 manyRequest := by
  intro h
  have key : ∀ n : ℕ, n = 50 → ((List.range n ×ˢ List.range n).map fun p =>
      [lowMatch 0 p.1, lowMatch 1 p.2]).length < 2000 := by
    intro n hn
    refine h _ ?_ ?_
    · rw [List.map_map]
      refine (List.nodup_range.product List.nodup_range).map ?_
      rintro ⟨i, j⟩ ⟨i', j'⟩ he
      simp [groupKeys, lowMatch] at he
      rw [Prod.mk.injEq]
      omega
    · intro qs hqs
      obtain ⟨⟨i, j⟩, hij, rfl⟩ := List.mem_map.1 hqs
      rw [List.mem_product] at hij
      rw [hn] at hij
      have m0 : lowMatch 0 i ∈ manyRequest :=
        List.mem_append_left _ (List.mem_append_right _ (List.mem_map_of_mem hij.1))
      have m1 : lowMatch 1 j ∈ manyRequest := List.mem_append_right _ (List.mem_map_of_mem hij.2)
      refine ⟨by simp, ⟨?_, ?_, ?_, ?_, ?_⟩, ?_⟩
      · intro q hq
        rcases List.mem_pair.1 hq with rfl | rfl
        · exact m0
        · exact m1
      · simp [lowMatch, emptyStore]
      · simp [lowMatch]
      · simp [lowMatch]
      · simp [lowMatch]
      · rintro ⟨q, hq⟩
        have h1 := manyRequest_type (hq.mem q (by simp))
        have h2 := hq.types
        simp only [List.cons_append, List.nil_append, List.pairwise_cons, List.mem_cons,
          List.not_mem_nil, or_false, forall_eq_or_imp, forall_eq] at h2
        have h3 : (1 : ℕ) < q.store.typeId := h2.2.1
        omega
  have := key 50 rfl
  rw [List.length_map, List.length_product, List.length_range] at this
  omega

/-- Only the best pair is as relevant as the best pair. -/
theorem manyRequest_best {ls : List Subquery} (h : IsStack manyRequest ls) {v : ℚ}
    (hv : stackRelev ls = .fin v) (hlt : 1 < v + 1 / 2 ^ 41) : ls = bestPair := by
  have hb : ∀ q ∈ bestPair, q.weight = lit 0.5 := by decide +kernel
  have hw : ∀ q ∈ manyRequest, q.weight = lit 0.5 ∧ q ∈ bestPair ∨ q.weight = .fin (1 / 64) := by
    intro q hq
    rcases manyRequest_mem hq with h | ⟨i, rfl⟩ | ⟨i, rfl⟩
    · exact Or.inl ⟨hb q h, h⟩
    · exact Or.inr rfl
    · exact Or.inr rfl
  have small : ∀ r : ℚ, r ≤ 9 / 16 → stackRelev ls = .fin r → False := by
    intro r hr he
    rw [hv] at he
    cases he
    have : (1 : ℚ) / 2 ^ 41 ≤ 1 / 4 := by norm_num
    linarith
  match ls, h with
  | [], _ => exact absurd (small 0 (by norm_num) rfl) id
  | [a], h =>
    rcases hw a (h.mem a (by simp)) with ⟨ha, -⟩ | ha
    · refine absurd (small (1 / 2) (by norm_num) ?_) id
      show 0 + a.weight = _
      rw [ha]
      decide +kernel
    · refine absurd (small (1 / 64) (by norm_num) ?_) id
      show 0 + a.weight = _
      rw [ha]
      decide +kernel
  | [a, b], h =>
    have ht := h.types
    simp only [List.pairwise_cons, List.mem_singleton, forall_eq, List.not_mem_nil, false_imp_iff,
      implies_true, List.Pairwise.nil, and_true] at ht
    rcases hw a (h.mem a (by simp)) with ⟨ha, ma⟩ | ha <;>
      rcases hw b (h.mem b (by simp)) with ⟨hb, mb⟩ | hb
    · have : ∀ a ∈ bestPair, ∀ b ∈ bestPair, a.store.typeId < b.store.typeId → [a, b] = bestPair := by
        decide +kernel
      exact this a ma b mb ht
    · refine absurd (small (33 / 64) (by norm_num) ?_) id
      show 0 + a.weight + b.weight = _
      rw [ha, hb]
      decide +kernel
    · refine absurd (small (33 / 64) (by norm_num) ?_) id
      show 0 + a.weight + b.weight = _
      rw [ha, hb]
      decide +kernel
    · refine absurd (small (1 / 32) (by norm_num) ?_) id
      show 0 + a.weight + b.weight = _
      rw [ha, hb]
      decide +kernel
  | a :: b :: c :: t, h =>
    have ht := h.types
    simp only [List.pairwise_cons, List.mem_cons, forall_eq_or_imp] at ht
    have := manyRequest_type (h.mem c (by simp))
    omega

/-- The hypotheses of C79 hold for more than 2000 stacks, and the best one is not kept out. -/
example : Delivered manyRequest ∧ FewTypes manyRequest ∧ ZoomsAscend manyRequest ∧
    WeightsPositive manyRequest ∧ ¬ FewGroupStacks 2000 manyRequest ∧
    ∃ hs, HitsStackUp (listTreeEnv false).toEnv plainOpts manyRequest hs ∧ hs.map Hit.q = bestPair ∧
      (∀ h ∈ hs, RoomInGroups manyRequest (h.q, h.kg)) ∧
      ¬ Crowded 2000 manyRequest (hs.map Hit.q) := by
  refine ⟨⟨by decide +kernel, by decide +kernel, by decide +kernel⟩,
    fewTypes_of_three (by decide +kernel) fun q hq => (manyRequest_type hq).trans (by omega),
    by unfold ZoomsAscend; decide +kernel, by unfold WeightsPositive; decide +kernel,
    manyRequest_many, ?_⟩
  have hev : ((bestPair[0]?.bind (hitAt · 0)).bind fun a => (bestPair[1]?.bind (hitAt · 0)).map fun b =>
      (a.q.store.bboxes.any fun bb => decide (bb.minX ≤ a.grid.entry.x ∧
        a.grid.entry.x ≤ bb.maxX ∧ bb.minY ≤ a.grid.entry.y ∧ a.grid.entry.y ≤ bb.maxY)) &&
      (b.q.store.bboxes.any fun bb => decide (bb.minX ≤ b.grid.entry.x ∧
        b.grid.entry.x ≤ bb.maxX ∧ bb.minY ≤ b.grid.entry.y ∧ b.grid.entry.y ≤ bb.maxY)) &&
      decide (a.tile.1 ≤ b.tile.1 ∧ a.tile.2.1 = b.tile.2.1 / 2 ^ (b.tile.1 - a.tile.1) ∧
        a.tile.2.2 = b.tile.2.2 / 2 ^ (b.tile.1 - a.tile.1)) &&
      decide ([a.q, b.q] = bestPair) && decide (a.q.store.zoom < 14) && decide (b.q.store.zoom < 14) &&
      decide (a.kg.key.phrase = .exact 1) && decide (b.kg.key.phrase = .exact 2)) = some true := by
    decide +kernel
  obtain ⟨a, ha, hev⟩ := Option.bind_eq_some_iff.1 hev
  obtain ⟨b, hb, hev⟩ := Option.map_eq_some_iff.1 hev
  simp only [Bool.and_eq_true, decide_eq_true_eq, List.any_eq_true] at hev
  obtain ⟨⟨⟨⟨⟨⟨⟨e2, e3⟩, e4⟩, s1⟩, z1⟩, z2⟩, p1⟩, p2⟩ := hev
  obtain ⟨qa, hqa, ha⟩ := Option.bind_eq_some_iff.1 ha
  obtain ⟨qb, hqb, hb⟩ := Option.bind_eq_some_iff.1 hb
  obtain ⟨a1, a2⟩ := hitAt_first ha
  obtain ⟨b1, b2⟩ := hitAt_first hb
  refine ⟨[a, b], ⟨by simp, ?_, ?_, ?_, ?_, ?_⟩, s1, ?_, ?_⟩
  · rintro ⟨l, h, _⟩
    have := congrArg List.length h
    simp at this
  · show IsStack manyRequest [a.q, b.q]
    rw [s1]
    exact ⟨by decide +kernel, by decide +kernel, by decide +kernel, by decide +kernel,
      by decide +kernel⟩
  · intro l hl
    rcases List.mem_pair.1 hl with rfl | rfl
    · exact a2
    · exact b2
  · intro l hl
    rcases List.mem_pair.1 hl with rfl | rfl
    · exact e2
    · exact e3
  · rw [List.isChain_cons_cons]
    exact ⟨e4, List.isChain_singleton _⟩
  · intro l hl
    rcases List.mem_pair.1 hl with rfl | rfl
    · exact (unlimited_exact z1 p1).room _
    · exact (unlimited_exact z2 p2).room _
  · rintro ⟨l, h1, h2, h3⟩
    have hall : ∀ ls ∈ l, ls = bestPair := by
      intro ls hls
      obtain ⟨h4, s, v, h5, h6, h7⟩ := h3 ls hls
      have : stackRelev bestPair = .fin 1 := by decide +kernel
      rw [show [a, b].map Hit.q = bestPair from s1, this] at h5
      cases h5
      exact manyRequest_best h4 h6 h7
    match l, h1 with
    | x :: y :: t, _ =>
      rw [List.pairwise_cons] at h2
      have := (h2.1 y (by simp)).1
      rw [hall x (by simp), hall y (by simp)] at this
      exact this (List.prefix_refl _)

end Carmen
