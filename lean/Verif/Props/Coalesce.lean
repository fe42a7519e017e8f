import Verif.Lemmas.CoalesceOrder
import Verif.Lemmas.SingleLoop
import Verif.Lemmas.QueryAny
import Verif.Props.QueryOrder

/-!
# C35 to C40: `coalesce`
-/

namespace Carmen
open Format Spec Builder

/-! ## Example stores -/

/-- Two features on tile (1, 2). -/
def regionBuilder : Builder :=
  Builder.new.append ⟨1, 1⟩ [⟨1, 7, 1, 2, 3, 0⟩, ⟨lit 0.8, 1, 1, 2, 4, 0⟩]

/-- One feature on tile (5, 9), one on tile (40, 40). -/
def streetBuilder : Builder :=
  Builder.new.append ⟨2, 1⟩ [⟨1, 3, 5, 9, 7, 0⟩, ⟨1, 2, 40, 40, 8, 0⟩]

/-- The region index, at zoom 6. -/
def regionStore : Store := Store.openWith ((finish .id regionBuilder).getD []) 6 0 (lit 100) [] 0

/-- The street index, at zoom 8. -/
def streetStore : Store := Store.openWith ((finish .id streetBuilder).getD []) 8 1 (lit 100) [] 0

/-- The phrase match in the region index. -/
def regionMatch : Subquery := ⟨regionStore, 0, [], lit 0.5, 1, [⟨⟨.exact 1, 1⟩, false, 0, 5⟩]⟩

/-- The phrase match in the street index. -/
def streetMatch : Subquery := ⟨streetStore, 1, [], lit 0.5, 2, [⟨⟨.exact 2, 1⟩, false, 1, 5⟩]⟩

/-- A concrete environment. -/
def listEnv : Env := ⟨listMerger, listHeap _, false⟩

/-- Relevances and features of contexts. -/
def ctxIds (cs : List Context) : List (F64 × List (ℕ × ℕ)) :=
  cs.map fun c => (c.relev, c.entries.map fun e => (e.idx, e.entry.id))

/-! ## C35 -/

theorem coalesceSingle_idsOk {env : Env} {o : IterOrder} {q : Subquery} {opts : MatchOpts}
    {out : List Context} (h : coalesceSingle env o q opts = some out) : ∀ c ∈ out, c.IdsOk := by
  unfold coalesceSingle at h
  rw [Option.bind_eq_bind, Option.bind_eq_some_iff] at h
  obtain ⟨m, hm, h⟩ := h
  cases h
  intro c hc
  have hc := List.mem_of_mem_take hc
  rw [(List.perm_insertionSort _ _).mem_iff] at hc
  obtain ⟨p, hp, rfl⟩ := List.mem_map.1 hc
  obtain ⟨g, hg⟩ := (singleFeatures_collected hm).made p ((IterOrder.perm _ _).mem_iff.1 hp)
  refine ⟨by simp [singleContext], ?_⟩
  intro e he
  have he : e = p.2 := List.mem_singleton.1 he
  rw [he, hg]
  exact toEntry_idOk g q 0

theorem allContexts_idsOk {env : Env} {os : ℕ → IterOrder} {stack : List Subquery}
    {opts : MatchOpts} {cs : List Context} (h : allContexts env os stack opts = some cs) :
    ∀ c ∈ cs, c.IdsOk := by
  unfold allContexts at h
  split_ifs at h
  · obtain ⟨q, -, h⟩ := Option.bind_eq_some_iff.1 h
    exact coalesceSingle_idsOk h
  · intro c hc
    obtain ⟨z, c', h1, rfl | rfl⟩ := coalesceMulti_all (gridStep_idsOk env opts _) h c hc
    · exact h1
    · exact penalize_idsOk h1

/-- Falling relevance, and within a relevance falling score-distance of the first entry. -/
def BestFirst (a b : Context) : Prop :=
  b.relev < a.relev ∨ (b.relev = a.relev ∧ b.first.scoredist ≤ a.first.scoredist)

theorem bestFirst_of_singleKey {a b : Context} (h : b.singleKey ≤ a.singleKey) : BestFirst a b := by
  unfold Context.singleKey at h
  rw [Prod.Lex.toLex_le_toLex] at h
  rcases h with h | ⟨h, h'⟩
  · exact Or.inl h
  · refine Or.inr ⟨h, ?_⟩
    simp only at h'
    rw [Prod.Lex.toLex_le_toLex] at h'
    rcases h' with h' | ⟨h', _⟩
    · exact h'.le
    · exact h'.le

theorem bestFirst_of_sortKey {a b : Context} (h : b.sortKey ≤ a.sortKey) : BestFirst a b := by
  unfold Context.sortKey at h
  rw [Prod.Lex.toLex_le_toLex] at h
  rcases h with h | ⟨h, h'⟩
  · exact Or.inl h
  · refine Or.inr ⟨h, ?_⟩
    simp only at h'
    rw [Prod.Lex.toLex_le_toLex] at h'
    rcases h' with h' | ⟨h', _⟩
    · exact h'.le
    · exact h'.le

theorem allContexts_sorted {env : Env} {os : ℕ → IterOrder} {stack : List Subquery}
    {opts : MatchOpts} {cs : List Context} (h : allContexts env os stack opts = some cs) :
    cs.Pairwise BestFirst := by
  unfold allContexts at h
  split_ifs at h
  · obtain ⟨q, -, h⟩ := Option.bind_eq_some_iff.1 h
    unfold coalesceSingle at h
    rw [Option.bind_eq_bind, Option.bind_eq_some_iff] at h
    obtain ⟨m, -, h⟩ := h
    cases h
    exact ((pairwise_insertionSort_desc Context.singleKey _).imp bestFirst_of_singleKey).sublist
      (List.take_sublist _ _)
  · unfold coalesceMulti at h
    simp only [Option.bind_eq_bind, Option.bind_eq_some_iff] at h
    obtain ⟨s, -, h⟩ := h
    cases h
    exact (pairwise_insertionSort_desc Context.sortKey _).imp bestFirst_of_sortKey

/-- C35. Whatever the stores, the stack and the options, `coalesce` returns at most 40 contexts;
they have entries, come best first, none is 0.25 or more below the first one, and no two of them
are for the same feature of the same index. -/
theorem C35_coalesce_output (env : Env) (os : ℕ → IterOrder) (stack : List Subquery)
    (opts : MatchOpts) (out : List Context) (h : coalesce env os stack opts = some out) :
    out.length ≤ 40 ∧ (∀ c ∈ out, c.entries ≠ []) ∧
    out.Pairwise (fun a b => b.relev < a.relev ∨
      (b.relev = a.relev ∧ b.first.scoredist ≤ a.first.scoredist)) ∧
    (∀ best, out.head? = some best →
      ∀ c ∈ out, F64.fle (lit 0.25) (best.relev - c.relev) = false) ∧
    (out.map fun c => (c.first.idx, c.first.entry.id)).Nodup := by
  unfold coalesce at h
  rw [Option.bind_eq_bind, Option.bind_eq_some_iff] at h
  obtain ⟨cs, hcs, h⟩ := h
  have hok := allContexts_idsOk hcs
  have hsort := allContexts_sorted hcs
  cases cs with
  | nil =>
    cases h
    exact ⟨by decide, by simp, List.Pairwise.nil, by simp, by simp⟩
  | cons c t =>
    simp only [Option.some.injEq] at h
    subst h
    have hsub := pickContexts_sublist c.relev 0 [] (c :: t)
    refine ⟨pickContexts_length _ _ _ _, fun d hd => (hok d (hsub.subset hd)).1,
      hsort.sublist hsub, ?_, ?_⟩
    · intro best hb d hd
      rw [pickContexts_head, Option.some.injEq] at hb
      subst hb
      exact pickContexts_close hd
    · rw [List.Nodup, List.pairwise_map]
      refine List.pairwise_iff_forall_sublist.2 ?_
      intro a b hab hk
      have hne := List.pairwise_iff_forall_sublist.1 (pickContexts_nodup c.relev 0 [] (c :: t)) hab
      have ha := (hok a (hsub.subset (hab.subset (by simp)))).first
      have hb := (hok b (hsub.subset (hab.subset (by simp)))).first
      unfold CoalesceEntry.IdOk at ha hb
      rw [Prod.mk.injEq] at hk
      exact hne (by rw [ha, hb, hk.1, hk.2])

example : (coalesce listEnv (fun _ => .id) [regionMatch, streetMatch] ⟨none, none, 6⟩).map ctxIds =
    some [(lit 0.99, [(1, 7), (0, 3)])] := by decide +kernel

/-! ## C36 -/

/-- C36 (for index numbers below 128): different features of indexes get different temporary ids.
Stored ids are below `2 ^ 24` (`C05_score_overflow_partial` and `stored`). Missing: index numbers
from 128 on, for which the claim is false (`C36_tmp_ids_collide`). -/
theorem C36_tmp_ids_distinct_partial (idx id idx' id' : ℕ) (h1 : idx < 128) (h1' : idx' < 128)
    (h2 : id < 2 ^ 25) (h2' : id' < 2 ^ 25) (h : tmpIdOf idx id = tmpIdOf idx' id') :
    idx = idx' ∧ id = id' := by
  unfold tmpIdOf at h
  rw [Nat.shiftLeft_eq, Nat.shiftLeft_eq] at h
  omega

/-- C36, exactly: stored features are confused if and only if they have the same id and index numbers
that leave the same remainder by 128. -/
theorem C36_tmp_ids_equal_iff (idx id idx' id' : ℕ) (h2 : id < 2 ^ 25) (h2' : id' < 2 ^ 25) :
    tmpIdOf idx id = tmpIdOf idx' id' ↔ idx % 128 = idx' % 128 ∧ id = id' := by
  unfold tmpIdOf
  rw [Nat.shiftLeft_eq, Nat.shiftLeft_eq]
  omega

/-- A phrase match in the street index registered under number 128. -/
def collidingMatch : Subquery :=
  ⟨Store.openWith ((finish .id regionBuilder).getD []) 6 1 (lit 100) [] 0, 128, [], lit 0.5, 1,
    [⟨⟨.exact 1, 1⟩, false, 1, 5⟩]⟩

/-- C36 is false: index numbers 0 and 128 give the same temporary id, and `coalesce` drops a
feature of one index because of the feature with the same id in the other index. -/
theorem C36_tmp_ids_collide :
    (∃ idx id idx' id', idx < 2 ^ 16 ∧ idx' < 2 ^ 16 ∧ id < 2 ^ 24 ∧ id' < 2 ^ 24 ∧
      tmpIdOf idx id = tmpIdOf idx' id' ∧ (idx, id) ≠ (idx', id')) ∧
    ∃ cs out, coalesceMulti listEnv (fun _ => .id) [regionMatch, collidingMatch] ⟨none, none, 6⟩ =
        some cs ∧
      coalesce listEnv (fun _ => .id) [regionMatch, collidingMatch] ⟨none, none, 6⟩ = some out ∧
      (cs.map fun c => (c.relev, c.first.idx, c.first.entry.id)) =
        [(lit 0.5, 0, 3), (lit 0.49, 128, 3), (lit 0.4, 0, 4), (lit 0.39, 128, 4)] ∧
      (out.map fun c => (c.relev, c.first.idx, c.first.entry.id)) =
        [(lit 0.5, 0, 3), (lit 0.4, 0, 4)] := by
  refine ⟨⟨0, 3, 128, 3, by decide, by decide, by decide, by decide, by decide, by decide⟩, ?_⟩
  exact ⟨(coalesceMulti listEnv (fun _ => .id) [regionMatch, collidingMatch] ⟨none, none, 6⟩).getD [],
    (coalesce listEnv (fun _ => .id) [regionMatch, collidingMatch] ⟨none, none, 6⟩).getD [],
    by decide +kernel, by decide +kernel, by decide +kernel, by decide +kernel⟩

/-! ## C37 -/

theorem idChanges_le_length (p : ℕ) (l : List ℕ) : idChanges p l ≤ l.length := by
  induction l generalizing p with
  | nil => exact Nat.zero_le _
  | cons a t ih =>
    rw [idChanges, List.length_cons]
    have := ih a
    split_ifs <;> omega

theorem isFin_of_between {a b : F64} (hb : b.IsFin) (h0 : 0 ≤ a) (h : a ≤ b) : a.IsFin := by
  obtain ⟨q, rfl⟩ := hb.exists
  cases a with
  | fin q => trivial
  | nan => exact absurd h (by simp [F64.le_def, F64.rank, Prod.Lex.le_iff])
  | inf s =>
    cases s
    · exact absurd h (by simp [F64.le_def, F64.rank, Prod.Lex.le_iff])
    · exact absurd h0 (by decide)

/-- C37 (of a query result). Without proximity, when the feature id changes at most 80 times along
the query result and the first entry does not have both id 0 and score 0, every feature with an
entry less than 0.25 below all entries is collected, represented by one of its entries with the
highest relevance and score-distance. Missing: a first entry with id 0 and score 0, which is not
collected (`C37_feature_zero_lost`), and few features whose ids change often, because changes are
counted, not features (`C37_changes_counted`). -/
theorem C37_single_best_partial (o : IterOrder) (b : Builder) (hb : b.Wf) (db : SMap Bytes Bytes)
    (hfin : finish o b = some db) (hsmall : SmallRecords db) (env : Env) (q : Subquery)
    (hs : q.store.db = db) (k : KeyWithId) (hk : q.matchKeys.head? = some k)
    (hst : k.key.phrase.start < 2 ^ 32) (opts : MatchOpts) (ho : OptsWf opts)
    (hpr : opts.proximity = none) (hw : q.weight.IsFin) (hwv : q.weight.Valid) (hw0 : 0 ≤ q.weight)
    (grids : List MatchEntry) (hg : env.query q.store k.key opts 80 = some grids)
    (hzero : ∀ g, grids.head? = some g → g.entry.id ≠ 0 ∨ g.entry.score ≠ 0)
    (hch : idChanges 0 (grids.map (·.entry.id)) ≤ 80)
    (m : HMap ℕ CoalesceEntry) (hm : singleFeatures env q opts = some m)
    (g : MatchEntry) (hgm : g ∈ grids)
    (hclose : ∀ g' ∈ grids, F64.flt (g'.entry.relev * q.weight - g.entry.relev * q.weight)
      (lit 0.25) = true) :
    ∃ r ∈ grids, r.entry.id = g.entry.id ∧ HMap.find g.entry.id m = some (toEntry r q 0) ∧
      ∀ g' ∈ grids, g'.entry.id = g.entry.id →
        g'.entry.relev * q.weight < r.entry.relev * q.weight ∨
        (g'.entry.relev * q.weight = r.entry.relev * q.weight ∧ g'.scoredist ≤ r.scoredist) := by
  have hres := getMatching_mem hg
  have hsorted := C22_best_first_partial db (laidOut_finish hb hfin hsmall) q.store hs env.merger env.rows
    env.chk k.key hst opts ho hpr 80 (by decide) grids hg
  have hbnd : ∀ g ∈ grids, (g.entry.relev * q.weight).IsFin ∧ 0 ≤ g.entry.relev * q.weight := by
    intro g hg
    obtain ⟨h1, _, h2, h3⟩ := (hres g hg).relev_bounds
    have h0 := F64.mul_nonneg' h1 hw h2.le hw0
    exact ⟨isFin_of_between hw h0 (F64.mul_le_right h1 hw hwv hw0 h3), h0⟩
  have hok : LoopOk ([] ++ grids.map fun g => toEntry g q 0) := by
    rw [List.nil_append]
    refine ⟨?_, ?_, ?_, ?_⟩
    · rw [List.pairwise_map]
      refine hsorted.imp_of_mem ?_
      intro a c ha hc hac
      have hle : c.entry.relev ≤ a.entry.relev := by
        rcases hac with h | h
        · exact h.le
        · exact h.1.le
      exact F64.mul_mono (hres c hc).relev_bounds.1 hw (hres a ha).relev_bounds.1 hw hw0
        (hres a ha).relev_bounds.2.2.1.le hle (le_refl _)
    · intro e he
      obtain ⟨g, hg, rfl⟩ := List.mem_map.1 he
      exact hbnd g hg
    · intro e he
      obtain ⟨g, hg, rfl⟩ := List.mem_map.1 he
      show g.scoredist ≠ .nan
      rw [((hres g hg).no_proximity hpr).1]
      exact F64.ofRat_ne_nan _
    · intro e he
      rw [List.head?_map, Option.map_eq_some_iff] at he
      obtain ⟨g, hgh, rfl⟩ := he
      have hg := List.mem_of_mem_head? hgh
      refine (hzero g hgh).imp_right fun hne => ?_
      show 0 < g.scoredist
      obtain ⟨h1, _, h3⟩ := (hres g hg).no_proximity hpr
      rw [h1]
      have key : ∀ n : Fin 16, n.1 ≠ 0 → 0 < F64.ofNat n.1 := by decide +kernel
      exact key ⟨_, h3⟩ hne
  unfold singleFeatures at hm
  rw [hk] at hm
  have hg' : env.query q.store k.key opts (2 * maxContexts) = some grids := hg
  simp only [Option.bind_eq_bind, Option.bind_some, hg', hpr, Option.isNone_none,
    Option.bind_eq_some_iff] at hm
  obtain ⟨s, hloop, hm⟩ := hm
  cases hm
  have hmk : ∀ g e, mkEntry env.chk opts q 0 g = some e → e = toEntry g q 0 :=
    fun g e h => mkEntry_some h
  obtain ⟨hfrom, hbest⟩ := singleLoop_best (done := []) hmk hok (by rw [List.nil_append, List.map_map]; exact hch)
    ⟨Or.inl rfl, rfl, Or.inl ⟨rfl, rfl, rfl⟩, fun _ hp => (List.not_mem_nil hp).elim,
      fun _ hp => (List.not_mem_nil hp).elim⟩ rfl hloop
  rw [List.nil_append] at hfrom hbest hok
  have hge : toEntry g q 0 ∈ grids.map fun g => toEntry g q 0 := List.mem_map_of_mem hgm
  have hc : CloseTo (grids.map fun g => toEntry g q 0) (toEntry g q 0) := by
    intro a ha
    obtain ⟨g', hg', rfl⟩ := List.mem_map.1 ha
    exact hclose g' hg'
  obtain ⟨v, hv, _⟩ := hbest _ hge hc
  obtain ⟨hvm, hvid⟩ := hfrom _ (HMap.mem_of_find hv)
  obtain ⟨r, hr, hrv⟩ := List.mem_map.1 hvm
  simp only at hrv hvid
  subst hrv
  refine ⟨r, hr, hvid, hv, ?_⟩
  intro g' hg' hid
  exact rank_le_iff.1 (best_of_feature hok hge hc hbest hv _ (List.mem_map_of_mem hg') hid)

/-- C37 (of the content of a store). If at most 80 entries answer a query without proximity, under
at most 80 keys, and none of them has both id 0 and score 0, then every feature among them with an
entry less than 0.25 below all of them is collected, represented by one of its entries with the
highest relevance and score-distance. `cs` are the builder calls that made the store. -/
theorem C37_single_content_partial (o : IterOrder) (cs : List Call) (hc : ∀ c ∈ cs, c.Wf)
    (hscore : ∀ c ∈ cs, ∀ e ∈ c.entries, e.score ≤ 15) (b : Builder)
    (hrun : Builder.run cs = some b) (db : SMap Bytes Bytes) (hfin : finish o b = some db)
    (hsmall : SmallRecords db) (env : Env) (q : Subquery) (hs : q.store.db = db) (k : KeyWithId)
    (hk : q.matchKeys.head? = some k) (opts : MatchOpts) (ho : OptsWf opts)
    (hpr : opts.proximity = none) (hw : q.weight.IsFin) (hwv : q.weight.Valid) (hw0 : 0 ≤ q.weight)
    (st en : ℕ) (hst0 : k.key.phrase.start < 2 ^ 32)
    (hp : q.store.fetchPlan env.chk k.key.phrase = some (st, en, .singlePhrase)) (hst : st < 2 ^ 32)
    (ks : List GridKey) (hnd : ks.Nodup)
    (hks : ∀ k, k ∈ ks ↔ (Content.run cs k).isSome ∧ st ≤ k.phraseId ∧ k.phraseId < en)
    (hlim : ks.length ≤ 80)
    (es : List MatchEntry) (hes : es = answer (Content.run cs) opts q.store.radius k.key.langSet ks)
    (hfew : es.length ≤ 80) (hzero : ∀ e ∈ es, e.entry.id ≠ 0 ∨ e.entry.score ≠ 0)
    (m : HMap ℕ CoalesceEntry) (hm : singleFeatures env q opts = some m) (e : MatchEntry)
    (he : e ∈ es) (hclose : ∀ e' ∈ es,
      F64.flt (e'.entry.relev * q.weight - e.entry.relev * q.weight) (lit 0.25) = true) :
    ∃ r ∈ es, r.entry.id = e.entry.id ∧ HMap.find e.entry.id m = some (toEntry r q 0) ∧
      ∀ e' ∈ es, e'.entry.id = e.entry.id →
        e'.entry.relev * q.weight < r.entry.relev * q.weight ∨
        (e'.entry.relev * q.weight = r.entry.relev * q.weight ∧ e'.scoredist ≤ r.scoredist) := by
  obtain ⟨grids, hg, hperm⟩ := query_content o cs hc hscore b hrun db hfin hsmall q.store hs
    env.merger env.rows false k.key opts ho (boxFit_false _) (fun hne => absurd hpr hne) st en
    (fetchPlan_relax hp) hst ks hnd hks 80 hlim
  replace hg : env.query q.store k.key opts 80 = some grids := by
    have hm' := hm
    unfold singleFeatures at hm'
    rw [hk] at hm'
    simp only [Option.bind_eq_bind, Option.bind_some, Option.bind_eq_some_iff] at hm'
    obtain ⟨grids', hq, -⟩ := hm'
    replace hq : env.query q.store k.key opts 80 = some grids' := hq
    rw [hq, ← Option.some.inj (hg.symm.trans (getMatching_relax hq))]
  rw [← hes] at hperm
  have hch : idChanges 0 (grids.map (·.entry.id)) ≤ 80 := by
    refine le_trans (idChanges_le_length _ _) ?_
    rw [List.length_map, hperm.length_eq]
    exact hfew
  obtain ⟨r, hr, h1, h2, h3⟩ := C37_single_best_partial o b (refines_run hc hrun).wf db hfin hsmall
    env q hs k hk hst0 opts ho hpr hw hwv hw0 grids hg
    (fun g hg => hzero g (hperm.mem_iff.1 (List.mem_of_mem_head? hg))) hch m hm e
    (hperm.mem_iff.2 he) (fun e' he' => hclose e' (hperm.mem_iff.1 he'))
  exact ⟨r, hperm.mem_iff.1 hr, h1, h2, fun e' he' => h3 e' (hperm.mem_iff.2 he')⟩

/-- A store with one feature, with id 0 and score 0. -/
def zeroMatch : Subquery :=
  ⟨Store.openWith ((finish .id (Builder.new.append ⟨1, 1⟩ [⟨1, 0, 1, 2, 0, 0⟩])).getD []) 6 0
    (lit 100) [] 0, 0, [], 1, 1, [⟨⟨.exact 1, 1⟩, false, 0, 5⟩]⟩

/-- C37 is false: a feature with id 0 and score 0 that comes first is not collected, although the
query finds it. -/
theorem C37_feature_zero_lost :
    listEnv.query zeroMatch.store ⟨.exact 1, 1⟩ ⟨none, none, 6⟩ 80 =
      some [⟨⟨1, 0, 1, 2, 0, 0⟩, true, 0, 0⟩] ∧
    singleFeatures listEnv zeroMatch ⟨none, none, 6⟩ = some [] ∧
    coalesce listEnv (fun _ => .id) [zeroMatch] ⟨none, none, 6⟩ = some [] := by
  refine ⟨?_, ?_, ?_⟩ <;> decide +kernel

/-- Features 1 and 2 on 41 tiles each, and feature 3 on another one. -/
def manyChanges : List GridEntry :=
  ((List.range 41).flatMap fun i => [⟨1, 7, 100 - i, 0, 1, 0⟩, ⟨1, 7, 100 - i, 0, 2, 0⟩]) ++
    [⟨1, 7, 0, 0, 3, 0⟩]

/-- A store with these features. -/
def changesMatch : Subquery :=
  ⟨Store.openWith ((finish .id (Builder.new.append ⟨1, 1⟩ manyChanges)).getD []) 7 0
    (lit 100) [] 0, 0, [], 1, 1, [⟨⟨.exact 1, 1⟩, false, 0, 5⟩]⟩

/-- C37 is false for another reason: with three features in all, one of them with the same
relevance and score-distance as the others is not collected, because the ids of the others change
81 times before it. -/
theorem C37_changes_counted :
    ∃ grids m, listEnv.query changesMatch.store ⟨.exact 1, 1⟩ ⟨none, none, 7⟩ 80 = some grids ∧
      (∀ g ∈ grids, g.entry.id ∈ [1, 2, 3] ∧ g.entry.relev = 1 ∧ g.scoredist = lit 7) ∧
      (∃ g ∈ grids, g.entry.id = 3) ∧
      singleFeatures listEnv changesMatch ⟨none, none, 7⟩ = some m ∧ HMap.find 3 m = none :=
  ⟨(listEnv.query changesMatch.store ⟨.exact 1, 1⟩ ⟨none, none, 7⟩ 80).getD [],
    (singleFeatures listEnv changesMatch ⟨none, none, 7⟩).getD [], by decide +kernel,
    by decide +kernel, by decide +kernel, by decide +kernel, by decide +kernel⟩

theorem regionBuilder_wf : regionBuilder.Wf :=
  (refines_run (cs := [.append ⟨1, 1⟩ [⟨1, 7, 1, 2, 3, 0⟩, ⟨lit 0.8, 1, 1, 2, 4, 0⟩]])
    (by
      intro c hc
      rw [List.mem_singleton] at hc
      subst hc
      simp only [Call.Wf]
      decide +kernel) rfl).wf

example : ∃ m, singleFeatures listEnv regionMatch ⟨none, none, 6⟩ = some m ∧
    ∃ r : MatchEntry, r.entry.id = 4 ∧ HMap.find 4 m = some (toEntry r regionMatch 0) := by
  have hg : listEnv.query regionMatch.store ⟨.exact 1, 1⟩ ⟨none, none, 6⟩ 80 =
      some [⟨⟨1, 7, 1, 2, 3, 0⟩, true, 0, lit 7⟩, ⟨⟨lit 0.8, 1, 1, 2, 4, 0⟩, true, 0, 1⟩] := by
    decide +kernel
  refine ⟨(singleFeatures listEnv regionMatch ⟨none, none, 6⟩).getD [], by decide +kernel, ?_⟩
  obtain ⟨r, _, h1, h2, _⟩ := C37_single_best_partial .id regionBuilder regionBuilder_wf
    ((finish .id regionBuilder).getD []) (by decide +kernel) (by decide +kernel) listEnv regionMatch
    rfl _ rfl (by decide) ⟨none, none, 6⟩ ⟨by simp, by simp⟩ rfl (by decide +kernel) (by decide +kernel)
    (by decide +kernel) _ hg (by decide) (by decide)
    ((singleFeatures listEnv regionMatch ⟨none, none, 6⟩).getD []) (by decide +kernel)
    ⟨⟨lit 0.8, 1, 1, 2, 4, 0⟩, true, 0, 1⟩ (by decide +kernel) (by decide +kernel)
  exact ⟨r, h1, h2⟩

/-! ## C38 -/

/-- C38. Coalescing a single phrase match gives the same result for every iteration order of the
hash map. -/
theorem C38_single_hash_order (env : Env) (o o' : IterOrder) (q : Subquery) (opts : MatchOpts) :
    coalesceSingle env o q opts = coalesceSingle env o' q opts := by
  unfold coalesceSingle
  cases hm : singleFeatures env q opts with
  | none => rfl
  | some m =>
    simp only [Option.bind_eq_bind, Option.bind_some, Option.some.injEq]
    rw [collected_order (singleFeatures_collected hm) o o']

example : (coalesceSingle listEnv .rev regionMatch ⟨none, none, 6⟩).map ctxIds =
    some [(lit 0.5, [(0, 3)]), (lit 0.4, [(0, 4)])] := by decide +kernel

/-! ## C39 -/

theorem toEntry_madeFrom (q : Subquery) (g : MatchEntry) : MadeFrom q g (toEntry g q 0) :=
  ⟨rfl, rfl, rfl, rfl, rfl, rfl, rfl, rfl, rfl, tmpIdOf_eq _ _, rfl, rfl⟩

theorem consistent_of_builtAt {env : Env} {opts : MatchOpts} {stack : List Subquery} {z : Zxy}
    {c : Context} (h : BuiltAt env opts stack z c) : ConsistentContext env opts stack c := by
  obtain ⟨q, g, src, -, hb, hent, hmask⟩ := h
  cases src with
  | nil => have := hb.head; cases this
  | cons p rest =>
    have hp : p = (q, g) := by
      have := hb.head
      rw [List.head?_cons] at this
      exact Option.some.inj this
    subst hp
    refine ⟨q, g, rest, ?_, hb.from_stack, hb.disjoint, hmask,
      fun p hp => hb.inside p (List.mem_cons_of_mem _ hp)⟩
    rw [hent]
    exact List.forall₂_map_right_iff.2 (List.forall₂_same.2 fun p _ => toEntry_madeFrom p.1 p.2)

/-- C39. Every context `coalesce` returns for several phrase matches with non-zero masks is
consistent: its entries come from grids of the phrase matches' own queries, their masks are
pairwise disjoint and have the mask of the context as union, and the tile of every entry contains
the tile of the first one. The zooms of the indexes must be less than 16 apart, or overflow checks
on (where a larger gap panics). -/
theorem C39_contexts_consistent (env : Env) (os : ℕ → IterOrder) (stack : List Subquery)
    (opts : MatchOpts) (hlen : 2 ≤ stack.length) (hmask : ∀ q ∈ stack, q.mask ≠ 0)
    (hz : env.chk = true ∨ ∀ q ∈ stack, ∀ q' ∈ stack, q.store.zoom < q'.store.zoom + 16)
    (out : List Context) (h : coalesce env os stack opts = some out) :
    ∀ c ∈ out, ConsistentContext env opts stack c := by
  unfold coalesce at h
  rw [Option.bind_eq_bind, Option.bind_eq_some_iff] at h
  obtain ⟨cs, hcs, h⟩ := h
  unfold allContexts at hcs
  rw [if_neg (by omega)] at hcs
  have hperm := List.perm_insertionSort (fun a b : Subquery => a.stackKey ≤ b.stackKey) stack
  have hall := coalesceMulti_all (gridStep_built (env := env) (opts := opts)
    (fun q hq => hmask q (hperm.mem_iff.1 hq)) (hz.imp_right fun hz q hq q' hq' =>
      hz q (hperm.mem_iff.1 hq) q' (hperm.mem_iff.1 hq'))) hcs
  intro c hc
  have hccs : c ∈ cs := by
    cases cs with
    | nil => cases h; cases hc
    | cons a t =>
      simp only [Option.some.injEq] at h
      subst h
      exact (pickContexts_sublist _ _ _ _).subset hc
  obtain ⟨z, c', hb, hcc⟩ := hall c hccs
  have hcons := consistent_of_builtAt hb
  have hc' : ConsistentContext env opts (stack.insertionSort fun a b => a.stackKey ≤ b.stackKey)
      c := by
    rcases hcc with rfl | rfl
    · exact hcons
    · obtain ⟨q, g, rest, h1, h2, h3, h4, h5⟩ := hcons
      refine ⟨q, g, rest, ?_, h2, h3, ?_, h5⟩
      · rw [penalize_entries]; exact h1
      · rw [penalize_mask]; exact h4
  obtain ⟨q, g, rest, h1, h2, h3, h4, h5⟩ := hc'
  exact ⟨q, g, rest, h1, fun p hp => ⟨hperm.mem_iff.1 (h2 p hp).1, (h2 p hp).2⟩, h3, h4, h5⟩

example : ∃ out, coalesce listEnv (fun _ => .id) [streetMatch, regionMatch]
      ⟨some ⟨1, 2, 1, 2⟩, none, 6⟩ = some out ∧
    (out.map fun c => (c.mask, c.entries.map fun e => (e.idx, e.mask, e.entry.x, e.entry.y))) =
      [(3, [(1, 2, 5, 9), (0, 1, 1, 2)])] ∧
    ∀ c ∈ out, ConsistentContext listEnv ⟨some ⟨1, 2, 1, 2⟩, none, 6⟩ [streetMatch, regionMatch] c :=
  ⟨(coalesce listEnv (fun _ => .id) [streetMatch, regionMatch] ⟨some ⟨1, 2, 1, 2⟩, none, 6⟩).getD [],
    by decide +kernel, by decide +kernel,
    C39_contexts_consistent listEnv (fun _ => .id) _ _ (by decide) (by decide +kernel)
      (Or.inr (by decide +kernel)) _ (by decide +kernel)⟩

/-! ## C40 -/

/-- C40. For phrase matches with distinct index numbers and non-zero masks, `coalesce` gives the
same result for every iteration order of its hash maps. -/
theorem C40_hash_order (env : Env) (os os' : ℕ → IterOrder) (stack : List Subquery)
    (opts : MatchOpts) (hidx : (stack.map (·.idx)).Nodup) (hmask : ∀ q ∈ stack, q.mask ≠ 0) :
    coalesce env os stack opts = coalesce env os' stack opts := by
  have h : allContexts env os stack opts = allContexts env os' stack opts := by
    unfold allContexts
    split_ifs
    · congr 1
      funext q
      exact C38_single_hash_order env _ _ q opts
    · exact coalesceMulti_order env os os' stack opts hidx hmask
  unfold coalesce
  rw [h]

example : (coalesce listEnv (fun _ => .rev) [regionMatch, streetMatch] ⟨none, none, 6⟩).map ctxIds =
    some [(lit 0.99, [(1, 7), (0, 3)])] := by decide +kernel

end Carmen
