import Verif.Lemmas.TreeQuota
import Verif.Lemmas.TreeBound

/-!
# C41 to C45: `tree_coalesce`
-/

namespace Carmen
open Format Spec Builder

/-! ## Example stores and phrase matches -/

/-- The region index with a bounding box, of type 0. -/
def regionTreeStore : Store := { regionStore with bboxes := [⟨0, 0, 63, 63⟩] }

/-- The street index with a bounding box, of type 1. -/
def streetTreeStore : Store := { streetStore with bboxes := [⟨0, 0, 255, 255⟩] }

/-- The phrase match in the region index. -/
def regionTreeMatch : Subquery := { regionMatch with store := regionTreeStore }

/-- The phrase match in the street index. -/
def streetTreeMatch : Subquery := { streetMatch with store := streetTreeStore }

/-- A search by going through the list. -/
def listBush : Bush :=
  ⟨fun pts p => (List.range pts.length).filter fun i => decide (pts[i]? = some p),
    fun _ _ => List.Perm.refl _⟩

/-- A concrete environment; `chk` tells whether arithmetic is checked. -/
def listTreeEnv (chk : Bool) : TreeEnv :=
  ⟨⟨listMerger, listHeap _, chk⟩, listBush, listHeap _, listHeap _⟩

/-- Options without proximity and bounding box. -/
def plainOpts : MatchOpts := ⟨none, none, 6⟩

/-- The state at the end of tree coalesce of some phrase matches. -/
def treeEnd (chk : Bool) (pms : List Subquery) (opts : MatchOpts) : Option TreeState :=
  (stackable pms).bind fun t => (treeInit (listTreeEnv chk) t opts).bind
    (treeLoop (listTreeEnv chk) t opts t.arena.nodes.length)

/-- A run of `tree_coalesce` taken apart. -/
theorem treeCoalesce_some {env : TreeEnv} {t : StackTree} {opts : MatchOpts} {out : List Context}
    (h : treeCoalesce env t opts = some out) : ∃ s₀ s, treeInit env t opts = some s₀ ∧
      treeLoop env t opts t.arena.nodes.length s₀ = some s ∧
      out = env.contexts.intoVecDesc s.contexts := by
  unfold treeCoalesce at h
  simp only [Option.bind_eq_bind, Option.bind_eq_some_iff] at h
  obtain ⟨s₀, h1, s, h2, h⟩ := h
  exact ⟨s₀, s, h1, h2, (Option.some.inj h).symm⟩

/-- The state at the end of a run, and what comes out. -/
theorem treeEnd_out {chk : Bool} {pms : List Subquery} {opts : MatchOpts} {s : TreeState}
    (h : treeEnd chk pms opts = some s) :
    ∃ t s₀ out, stackable pms = some t ∧ treeInit (listTreeEnv chk) t opts = some s₀ ∧
      treeLoop (listTreeEnv chk) t opts t.arena.nodes.length s₀ = some s ∧
      treeCoalesce (listTreeEnv chk) t opts = some out ∧ out.Perm s.contexts := by
  unfold treeEnd at h
  obtain ⟨t, ht, h⟩ := Option.bind_eq_some_iff.1 h
  obtain ⟨s₀, hi, h⟩ := Option.bind_eq_some_iff.1 h
  refine ⟨t, s₀, _, ht, hi, h, ?_, (listTreeEnv chk).contexts.intoVecDesc_perm _⟩
  unfold treeCoalesce
  rw [hi, Option.bind_eq_bind, Option.bind_some, h]
  rfl

/-! ## C41 -/

/-- C41: every context returned is stacked from one grid for each phrase match on a path of the
tree. `StackedFrom` says what that means. -/
theorem C41_genuine {env : TreeEnv} {sm : ℕ} {pms : List Subquery} {t : StackTree}
    {opts : MatchOpts} {out : List Context} (h : stackableWith sm pms = some t)
    (hids : IdsUnique pms) (hz : env.chk = true ∨ ZoomsAscend pms)
    (hout : treeCoalesce env t opts = some out) :
    ∀ c ∈ out, ∃ ls, StackedFrom env.toEnv t opts ls c := by
  obtain ⟨s₀, s, h1, h2, rfl⟩ := treeCoalesce_some hout
  have hr : RunOk env t opts pms := ⟨⟨sm, h⟩, hids, hz⟩
  have hi := treeLoop_induct (P := GenuineInv env t opts pms)
    (fun _ _ _ _ _ _ hs _ hround => hs.round hr hround) _ (treeInit_genuine h1) h2
  intro c hc
  exact hi.contexts c ((env.contexts.intoVecDesc_perm _).mem_iff.1 hc)

/-- The hypotheses of C41 on a region and a street, and what comes out: two stacks, two regions and
two streets. -/
example : IdsUnique [regionTreeMatch, streetTreeMatch] ∧
    ZoomsAscend [regionTreeMatch, streetTreeMatch] ∧
    ((treeEnd false [regionTreeMatch, streetTreeMatch] plainOpts).map fun s =>
      s.contexts.map fun c => c.entries.map fun e => (e.idx, e.entry.id)) =
      some [[(1, 7), (0, 3)], [(1, 7), (0, 4)], [(0, 3)], [(0, 4)], [(1, 7)], [(1, 8)]] := by
  unfold IdsUnique ZoomsAscend
  decide +kernel

/-- The grids that answer a phrase match, for both limits, without proximity: their features. -/
theorem stacked_ids {env : TreeEnv} {t : StackTree} {opts : MatchOpts} {pms : List Subquery}
    {sm : ℕ} (h : stackableWith sm pms = some t) {ls : List Level} {c : Context}
    (hs : StackedFrom env.toEnv t opts ls c) {e : CoalesceEntry} (he : e ∈ c.entries) :
    ∃ q ∈ pms, ∃ kg ∈ q.matchKeys, ∃ limit, ∃ o grids, (limit = 80 ∨ limit = 100000) ∧
      lookupOpts env.toEnv opts q kg = some o ∧
      env.query q.store kg.key o limit = some grids ∧ e.idx = q.idx ∧
      ∃ g ∈ grids, g.entry.id = e.entry.id := by
  obtain ⟨l, hl, hm⟩ : ∃ l ∈ ls, MadeFrom l.q l.grid e := by
    have hf := hs.entries
    have : ∀ (a : List Level) (b : List CoalesceEntry),
        List.Forall₂ (fun l e => MadeFrom l.q l.grid e ∧ e.phrasematchId = l.kg.id) a b →
        e ∈ b → ∃ l ∈ a, MadeFrom l.q l.grid e := by
      intro a b hab
      induction hab with
      | nil => intro h; cases h
      | cons h1 _ ih =>
        intro hmem
        rcases List.mem_cons.1 hmem with rfl | hmem
        · exact ⟨_, by simp, h1.1⟩
        · obtain ⟨l, hl, hm⟩ := ih hmem
          exact ⟨l, List.mem_cons_of_mem _ hl, hm⟩
    obtain ⟨l, hl, hm⟩ := this _ _ hf he
    exact ⟨l, List.mem_reverse.1 hl, hm⟩
  have hans : ∃ limit, (limit = 80 ∨ limit = 100000) ∧ l.Answers env.toEnv opts limit := by
    by_cases ha : Alone ls
    · exact ⟨80, Or.inl rfl, hs.answers l hl 80 (fun _ => rfl) (fun hn => absurd ha hn)⟩
    · exact ⟨100000, Or.inr rfl, hs.answers l hl 100000 (fun hn => absurd hn ha) (fun _ => rfl)⟩
  obtain ⟨limit, hlim, hpm, hkg, o, grids, h1, h2, h3⟩ := hans
  obtain ⟨qs, e1, e2, _⟩ := C30_paths_are_stacks h hs.path
  have hq : l.q ∈ pms := by
    have : some l.q ∈ qs.map some := by
      rw [← e1, ← hpm, List.map_map]
      exact List.mem_map_of_mem (f := StackNode.pm ∘ Level.node) hl
    obtain ⟨q', hq', h⟩ := List.mem_map.1 this
    cases h
    exact e2 _ hq'
  exact ⟨l.q, hq, l.kg, hkg, limit, o, grids, hlim, h1, h2, hm.2.2.2.2.2.2.2.2.2.2.1, l.grid, h3,
    hm.1.symm⟩

/-- Two phrase matches of different indexes at one zoom whose match keys have the same id. -/
def sharedIdPms : List Subquery :=
  [regionTreeMatch, { streetTreeMatch with
    store := { streetTreeStore with zoom := 6 }, matchKeys := [⟨⟨.exact 2, 1⟩, false, 0, 5⟩] }]

/-- Without unique ids C41 fails: the cached grids of one index are used for the other one. -/
theorem C41_shared_id : ∃ t out, stackable sharedIdPms = some t ∧
    treeCoalesce (listTreeEnv true) t plainOpts = some out ∧
    ∃ c ∈ out, ¬ ∃ ls, StackedFrom (listTreeEnv true).toEnv t plainOpts ls c := by
  have hev : ((treeEnd true sharedIdPms plainOpts).map fun s =>
      s.contexts.any fun c => c.entries.any fun e => e.idx == 1 && e.entry.id == 3) =
      some true := by decide +kernel
  obtain ⟨s, hs, hev⟩ := Option.map_eq_some_iff.1 hev
  obtain ⟨t, s₀, out, ht, -, -, hout, hp⟩ := treeEnd_out hs
  rw [List.any_eq_true] at hev
  obtain ⟨c, hc, hev⟩ := hev
  rw [List.any_eq_true] at hev
  obtain ⟨e, he, hev⟩ := hev
  rw [Bool.and_eq_true, beq_iff_eq, beq_iff_eq] at hev
  refine ⟨t, out, ht, hout, c, hp.mem_iff.2 hc, ?_⟩
  rintro ⟨ls, hs⟩
  obtain ⟨q, hq, kg, hkg, limit, o, grids, hlim, h1, h2, h3, g, hg, h4⟩ :=
    stacked_ids (sm := leafSoftMax) ht hs he
  rw [hev.1] at h3
  rw [hev.2] at h4
  have hall : ∀ q ∈ sharedIdPms, ∀ kg ∈ q.matchKeys, ∀ limit ∈ [80, 100000], 1 = q.idx →
      ((lookupOpts (listTreeEnv true).toEnv plainOpts q kg).bind fun o =>
        ((listTreeEnv true).query q.store kg.key o limit).map fun grids =>
          grids.all fun g => g.entry.id != 3) = some true := by decide +kernel
  have := hall q hq kg hkg limit (by simpa using hlim) h3
  rw [h1, Option.bind_some, h2, Option.map_some, Option.some.injEq, List.all_eq_true] at this
  have := this g hg
  rw [h4] at this
  simp at this

/-- A feature on tile (0, 0). -/
def cornerStore : Store := Store.openWith
  ((finish .id (Builder.new.append ⟨1, 1⟩ [⟨1, 7, 0, 0, 3, 0⟩])).getD []) 8 0 (lit 100)
  [⟨0, 0, 255, 255⟩] 0

/-- A phrase match at zoom 8 below which one at zoom 6 is stacked. -/
def descendingPms : List Subquery :=
  [{ regionTreeMatch with store := cornerStore },
   { streetTreeMatch with store := { streetTreeStore with zoom := 6 } }]

/-- In a context of two entries the zooms ascend. -/
theorem stacked_two {env : TreeEnv} {t : StackTree} {opts : MatchOpts} {pms : List Subquery}
    {sm : ℕ} (h : stackableWith sm pms = some t) {ls : List Level} {c : Context}
    (hs : StackedFrom env.toEnv t opts ls c) (hlen : c.entries.length = 2) :
    ∃ a ∈ pms, ∃ b ∈ pms, a.store.typeId < b.store.typeId ∧ a.store.zoom ≤ b.store.zoom := by
  have hlen : ls.length = 2 := by
    have := hs.entries.length_eq
    rw [List.length_reverse, hlen] at this
    exact this
  obtain ⟨a, b, rfl⟩ := List.length_eq_two.1 hlen
  have ht' := hs.tiles
  rw [List.isChain_cons_cons] at ht'
  have hz := ht'.1.1
  obtain ⟨qs, e1, e2, e3, _⟩ := C30_paths_are_stacks h hs.path
  have hno : ¬ Alone [a, b] := by
    rintro ⟨l, h1, _⟩
    have := congrArg List.length h1
    simp at this
  have ha := (hs.answers a (by simp) 100000 (fun h => absurd h hno) (fun _ => rfl)).1
  have hb := (hs.answers b (by simp) 100000 (fun h => absurd h hno) (fun _ => rfl)).1
  have hql : qs.length = 2 := by
    have := congrArg List.length e1
    simpa using this.symm
  obtain ⟨qa, qb, rfl⟩ := List.length_eq_two.1 hql
  simp only [List.map_cons, List.map_nil, ha, hb, List.cons.injEq, Option.some.injEq,
    and_true] at e1
  rw [← e1.1, ← e1.2] at e2 e3
  exact ⟨a.q, e2 a.q (by simp), b.q, e2 b.q (by simp), (List.pairwise_cons.1 e3).1 b.q (by simp),
    hz⟩

/-- Where zooms descend C41 fails without checked arithmetic: the shift wraps around, and a grid is
stacked on a tile that does not contain it. -/
theorem C41_descending : ∃ t out, stackable descendingPms = some t ∧ IdsUnique descendingPms ∧
    treeCoalesce (listTreeEnv false) t plainOpts = some out ∧
    ∃ c ∈ out, ¬ ∃ ls, StackedFrom (listTreeEnv false).toEnv t plainOpts ls c := by
  have hev : ((treeEnd false descendingPms plainOpts).map fun s =>
      s.contexts.any fun c => c.entries.length == 2) = some true := by decide +kernel
  have hids : IdsUnique descendingPms := by
    unfold IdsUnique
    decide +kernel
  have hall : ∀ x ∈ descendingPms, ∀ y ∈ descendingPms,
      x.store.typeId < y.store.typeId → ¬ x.store.zoom ≤ y.store.zoom := by decide +kernel
  obtain ⟨s, hs, hev⟩ := Option.map_eq_some_iff.1 hev
  obtain ⟨t, s₀, out, ht, -, -, hout, hp⟩ := treeEnd_out hs
  obtain ⟨c, hc, hev⟩ := List.any_eq_true.1 hev
  refine ⟨t, out, ht, hids, hout, c, hp.mem_iff.2 hc, ?_⟩
  rintro ⟨ls, hs⟩
  obtain ⟨a, ha, b, hb, h1, h2⟩ := stacked_two (sm := leafSoftMax) ht hs (beq_iff_eq.1 hev)
  exact hall a ha b hb h1 h2

/-! ## C42 -/

theorem cpqPushAll_length_le {α K : Type} [LinearOrder K] {key : α → K} {n : ℕ} (H : Heap key)
    (es : List α) {q : List α} (h : q.length ≤ n) : (cpqPushAll H n q es).length ≤ n := by
  unfold cpqPushAll
  induction es generalizing q with
  | nil => exact h
  | cons e es ih =>
    rw [List.foldl_cons]
    exact ih (cpqPush_length_le H e h)

/-- C42: at most 800 contexts come out, the best ones first: by relevance, then score-distance, then
lower index, then tile and feature. -/
theorem C42_bounded_sorted {env : TreeEnv} {t : StackTree} {opts : MatchOpts}
    {out : List Context} (hout : treeCoalesce env t opts = some out) :
    out.length ≤ 800 ∧ out.Pairwise fun a b =>
      b.relev < a.relev ∨ (b.relev = a.relev ∧
      (b.first.scoredist < a.first.scoredist ∨ (b.first.scoredist = a.first.scoredist ∧
      (a.first.idx < b.first.idx ∨ (a.first.idx = b.first.idx ∧
      (b.first.entry.x < a.first.entry.x ∨ (b.first.entry.x = a.first.entry.x ∧
      (b.first.entry.y < a.first.entry.y ∨ (b.first.entry.y = a.first.entry.y ∧
      b.first.entry.id ≤ a.first.entry.id))))))))) := by
  obtain ⟨s₀, s, h1, h2, rfl⟩ := treeCoalesce_some hout
  refine ⟨?_, ?_⟩
  · rw [(env.contexts.intoVecDesc_perm _).length_eq]
    refine treeLoop_induct (P := fun s => s.contexts.length ≤ 800) ?_ _ ?_ h2
    · intro s s' _ _ results expanded hs _ hr
      rw [hr.contexts]
      refine cpqPushAll_length_le (n := 800) _ _ ?_
      have : ∀ (rs : List Fetched) (p : List Context × HMap ℕ (List MatchEntry)),
          p.1.length ≤ 800 → (rs.foldl (absorbFetched env) p).1.length ≤ 800 := by
        intro rs
        induction rs with
        | nil => intro p hp; exact hp
        | cons r rs ih =>
          intro p hp
          rw [List.foldl_cons]
          refine ih _ ?_
          cases r with
          | single cs => exact cpqPushAll_length_le (n := 800) _ _ hp
          | multi id data => exact hp
      exact this results _ hs
    · obtain ⟨ss, _, _, hc, _⟩ := treeInit_some h1
      rw [hc]
      simp
  · refine (env.contexts.intoVecDesc_sorted _).imp ?_
    intro a b hab
    unfold Context.sortKey at hab
    simpa only [Prod.Lex.toLex_le_toLex, OrderDual.toDual_lt_toDual,
      OrderDual.toDual_inj, eq_comm (a := b.first.idx)] using hab

/-- A run to which C42 applies. -/
example : ((treeEnd false [regionTreeMatch, streetTreeMatch] plainOpts).map fun s =>
    s.contexts.length) = some 6 := by decide +kernel

/-! ## C43 -/

theorem isRangeKey_of_scan {chk : Bool} {k : FetchKey} (h : IsRangeScan k) :
    (isRangeKey chk k.kg.key.phrase).getD false = true := by
  obtain ⟨first, last, hp, h1, h2⟩ := h
  rw [hp]
  unfold isRangeKey
  have hlt : decide (last < first) = false := decide_eq_false (by omega)
  simp only [hlt, Bool.and_false]
  rw [if_neg (by simp), Option.getD_some, decide_eq_true_eq,
    show last + 2 ^ 32 - first = (last - first) + 2 ^ 32 by omega, Nat.add_mod_right,
    Nat.mod_eq_of_lt (by omega)]
  omega

theorem oneToken_of_pow {k : FetchKey} (h : IsOneToken k) : oneToken k.q.mask = true := by
  obtain ⟨i, hi, hm⟩ := h
  rw [hm]
  have : ∀ i < 32, oneToken (2 ^ i) = true := by decide +kernel
  exact this i hi

/-- C43: how many scans of each kind are made during a run. -/
theorem C43_quotas {env : TreeEnv} {t : StackTree} {opts : MatchOpts} {n : ℕ} {s₀ s : TreeState}
    (h0 : treeInit env t opts = some s₀) (h : treeLoop env t opts n s₀ = some s) :
    AtMost 8 (fun k => IsRangeScan k ∧ IsOneToken k ∧ k.kg.phraseLength = 1) s.fetched ∧
    AtMost 8 (fun k => IsRangeScan k ∧ IsOneToken k ∧ IsHighZoom k) s.fetched ∧
    AtMost 40 (fun k => IsRangeScan k ∧ IsOneToken k) s.fetched ∧
    AtMost 40 (fun k => IsRangeScan k ∧ IsHighZoom k) s.fetched ∧
    AtMost 600 IsHighZoom s.fetched := by
  obtain ⟨ss, _, _, _, _, hc, hf, _⟩ := treeInit_some h0
  have hq := treeLoop_quota n (s := s₀) (by
    rw [hc, hf]
    constructor <;> exact ⟨Nat.zero_le _, Nat.zero_le _⟩) h
  have hslow : ∀ k : FetchKey, IsHighZoom k →
      k.q.store.mightBeSlow = true ∧ k.kg.nearbyOnly = false := by
    intro k hk
    refine ⟨?_, hk.2⟩
    unfold Store.mightBeSlow
    exact decide_eq_true hk.1
  refine ⟨?_, ?_, ?_, ?_, ?_⟩
  · refine atMost_of_charge (get := Counts.oneLetter) rfl (fun _ _ => rfl) ?_
      (hq.letters.1.trans hq.letters.2)
    rintro k - ⟨h1, h2, h3⟩
    unfold FetchKey.charge Carmen.charge
    rw [isRangeKey_of_scan h1, oneToken_of_pow h2, h3]
    exact Nat.le_add_right 1 _
  · refine atMost_of_charge (get := Counts.oneWordHigh) rfl (fun _ _ => rfl) ?_
      (hq.wordsHigh.1.trans hq.wordsHigh.2)
    rintro k - ⟨h1, h2, h3⟩
    obtain ⟨h4, h5⟩ := hslow k h3
    unfold FetchKey.charge Carmen.charge
    rw [isRangeKey_of_scan h1, oneToken_of_pow h2, h4, h5]
    exact Nat.le_add_right 1 _
  · refine atMost_of_charge (get := Counts.oneWord) rfl (fun _ _ => rfl) ?_
      (hq.words.1.trans hq.words.2)
    rintro k - ⟨h1, h2⟩
    unfold FetchKey.charge Carmen.charge
    rw [isRangeKey_of_scan h1, oneToken_of_pow h2]
    exact Nat.le_add_right 1 _
  · refine atMost_of_charge (get := Counts.allHighRange) rfl (fun _ _ => rfl) ?_
      (hq.ranges.1.trans hq.ranges.2)
    rintro k - ⟨h1, h3⟩
    obtain ⟨h4, h5⟩ := hslow k h3
    unfold FetchKey.charge Carmen.charge
    rw [isRangeKey_of_scan h1, h4, h5]
    exact Nat.le_add_left 1 _
  · refine atMost_of_charge (get := Counts.allHigh) rfl (fun _ _ => rfl) ?_
      (hq.highs.1.trans hq.highs.2)
    rintro k - h3
    obtain ⟨h4, h5⟩ := hslow k h3
    unfold FetchKey.charge Carmen.charge
    rw [h4, h5]
    exact Nat.le_add_left 1 _

/-- Ten phrase matches for one letter each; the ninth and the tenth scan are not made. -/
example : ((treeEnd false ((List.range 10).map fun i => (⟨regionTreeStore, i, [], 1, 1,
    [⟨⟨.range 1 5, 1⟩, false, i, 1⟩]⟩ : Subquery)) plainOpts).map fun s => s.fetched.length) =
    some 8 := by decide +kernel

/-! ## C44 -/

/-- C44: there are at most as many rounds as nodes in the tree, whatever the stores answer. -/
theorem C44_terminates {env : TreeEnv} {sm : ℕ} {pms : List Subquery} {t : StackTree}
    {opts : MatchOpts} (h : stackableWith sm pms = some t) {run : ℕ → TreeState} {n : ℕ}
    (h0 : treeInit env t opts = some (run 0))
    (hrun : ∀ i < n, (run i).finished = false ∧ treeRound env t opts (run i) = some (run (i + 1))) :
    n ≤ t.arena.nodes.length := by
  have ht := C32_tree_shape h
  have key : ∀ k ≤ n, OnceInv t (run k) ∧ (k < n → k ≤ (run k).visited.length) := by
    intro k
    induction k with
    | zero => intro _; exact ⟨treeInit_once h0, fun _ => Nat.zero_le _⟩
    | succ k ih =>
      intro hk
      obtain ⟨h1, h2⟩ := ih (by omega)
      obtain ⟨hf, hr⟩ := hrun k (by omega)
      obtain ⟨taken, keys, results, expanded, hround⟩ := treeRound_round hr
      refine ⟨h1.round ht hround, ?_⟩
      intro hlt
      have hf' := (hrun (k + 1) hlt).1
      have hne : (run k).steps ≠ [] := by
        intro hnil
        unfold TreeState.finished at hf
        rw [hnil] at hf
        simp at hf
      rcases hround.progress hne with hp | hp
      · rw [hround.visited, List.length_append, List.length_map]
        have := List.length_pos_iff.2 hp
        have := h2 (by omega)
        omega
      · unfold TreeState.finished at hf'
        rw [hp, Bool.or_true] at hf'
        cases hf'
  cases n with
  | zero => exact Nat.zero_le _
  | succ n =>
    obtain ⟨h1, h2⟩ := key n (by omega)
    have h2 := h2 (by omega)
    have hf := (hrun n (by omega)).1
    have hnd := h1.all_nodup ht
    have hsub : ((run n).visited ++ (run n).steps.map (·.ix)).Subperm
        (List.range t.arena.nodes.length) := by
      refine hnd.subperm ?_
      intro i hii
      rw [List.mem_range]
      rcases List.mem_append.1 hii with hii | hii
      · exact h1.bound i hii
      · obtain ⟨st, hst, rfl⟩ := List.mem_map.1 hii
        exact (h1.at_ st hst).lt
    have hlen := hsub.length_le
    rw [List.length_append, List.length_map, List.length_range] at hlen
    have : (run n).steps.length ≠ 0 := by
      intro hz
      rw [List.length_eq_zero_iff] at hz
      unfold TreeState.finished at hf
      rw [hz] at hf
      simp at hf
    omega

/-- C44: no node of the tree, hence no path, is processed twice. -/
theorem C44_once {env : TreeEnv} {sm : ℕ} {pms : List Subquery} {t : StackTree}
    {opts : MatchOpts} (h : stackableWith sm pms = some t) {n : ℕ} {s₀ s : TreeState}
    (h0 : treeInit env t opts = some s₀) (hl : treeLoop env t opts n s₀ = some s) :
    s.visited.Nodup ∧ ∀ i ∈ s.visited, i < t.arena.nodes.length := by
  have := treeLoop_induct (P := OnceInv t)
    (fun _ _ _ _ _ _ hs _ hround => hs.round (C32_tree_shape h) hround) n (treeInit_once h0) hl
  exact ⟨this.nodup, this.bound⟩

/-- C44: the number of rounds `tree_coalesce` is given in the model makes no difference. -/
theorem C44_fuel {env : TreeEnv} {sm : ℕ} {pms : List Subquery} {t : StackTree}
    {opts : MatchOpts} (h : stackableWith sm pms = some t) {s₀ s : TreeState}
    (h0 : treeInit env t opts = some s₀)
    (hl : treeLoop env t opts t.arena.nodes.length s₀ = some s) :
    s.finished = true ∧ ∀ k, treeLoop env t opts (t.arena.nodes.length + k) s₀ = some s := by
  have hf := treeLoop_finished (C32_tree_shape h) _ (treeInit_once h0) (by omega) hl
  exact ⟨hf, fun k => treeLoop_more _ k hl hf⟩

/-- A run: three nodes, in the order of their maximal relevance. -/
example : ((treeEnd false [regionTreeMatch, streetTreeMatch] plainOpts).map fun s => s.visited) =
    some [1, 2, 0] := by decide +kernel

/-! ## C45 -/

/-- No context of a path through a node has more than the maximal relevance at the node. -/
theorem through_bound {env : TreeEnv} {sm : ℕ} {pms : List Subquery} {t : StackTree}
    {opts : MatchOpts} (h : stackableWith sm pms = some t) (hids : IdsUnique pms)
    (hz : env.chk = true ∨ ZoomsAscend pms) (hw : WeightsOk pms) {n : StackNode} {ls : List Level}
    {c : Context} (hc : StackedFrom env.toEnv t opts ls c)
    (hthrough : n ∈ ls.map Level.node) : c.relev ≤ n.maxRelev := by
  have hr : RunOk env t opts pms := ⟨⟨sm, h⟩, hids, hz⟩
  refine (StackedFrom.relev_le hr hw hc).trans ?_
  obtain ⟨above, below, hsplit⟩ := List.append_of_mem hthrough
  have hpath := hc.path
  have hqs : (ls.map Level.node).map StackNode.pm = (ls.map (·.q)).map some := by
    rw [List.map_map, List.map_map]
    refine List.map_congr_left ?_
    intro l hl
    by_cases ha : Alone ls
    · exact (hc.answers l hl 80 (fun _ => rfl) (fun hn => absurd ha hn)).1
    · exact (hc.answers l hl 100000 (fun hn => absurd hn ha) (fun _ => rfl)).1
  rw [hsplit, List.append_cons above n below] at hpath hqs
  have := C34_max_relev_bounds h (fun q hq => (hw q hq).1) hpath hqs
  rwa [List.getLast?_concat, Option.getD_some] at this

/-- C45, the part that holds: when the loop stops, no context of a path through the step it stopped
at, or through a step that was in the heap then, is better than any context returned. What is
missing is the steps that the last chunk adds afterwards; see `C45_false` in
`Props/EarlyStop.lean`. -/
theorem C45_heap_bound_partial {env : TreeEnv} {sm : ℕ} {pms : List Subquery} {t : StackTree}
    {opts : MatchOpts} (h : stackableWith sm pms = some t) (hids : IdsUnique pms)
    (hz : env.chk = true ∨ ZoomsAscend pms) (hw : WeightsOk pms) {n : ℕ} {s₀ s : TreeState}
    (h0 : treeInit env t opts = some s₀) (hl : treeLoop env t opts n s₀ = some s) {st : Step}
    (hst : s.stopped = some st) {st' : Step} (hst' : st' = st ∨ st' ∈ s.left) {ls : List Level}
    {c : Context} (hc : StackedFrom env.toEnv t opts ls c)
    (hthrough : st'.node ∈ ls.map Level.node) : ∀ r ∈ s.contexts, c.relev ≤ r.relev := by
  have hi : StopInfo s := treeLoop_induct (P := StopInfo)
    (fun _ _ _ _ _ _ _ _ hround => hround.stopInfo) n (by
      obtain ⟨_, _, _, _, _, _, _, _, hn⟩ := treeInit_some h0
      intro st hst
      rw [hn] at hst
      cases hst) hl
  intro r hrr
  exact (through_bound h hids hz hw hc hthrough).trans
    ((hi st hst).2 st' (by simpa using hst') r hrr)

end Carmen
