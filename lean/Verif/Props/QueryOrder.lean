import Verif.Lemmas.NotWorse
import Verif.Props.Query

/-!
# C22, C23: the order of results and the row limit
-/

namespace Carmen
open Format Spec Builder

/-! ## C22 -/

theorem plan_of_result {s : Store} {M : KMerger} {H : Heap QueueElement.key} {mk : MatchKey}
    {opts : MatchOpts} {n : ℕ} {out : List MatchEntry}
    (hout : s.getMatching M H false mk opts n = some out) :
    ∃ plan, s.fetchPlan false mk.phrase = some plan := by
  cases h : s.fetchPlan false mk.phrase with
  | some p => exact ⟨p, rfl⟩
  | none =>
    unfold Store.getMatching Store.queryRows at hout
    rw [h] at hout
    simp at hout

theorem streams_ranked {db : SMap Bytes Bytes} {s : Store}
    {opts : MatchOpts} (hd : LaidOut db)
    (ho : OptsWf opts) (hpr : opts.proximity = none) (M : KMerger) (mk : MatchKey)
    {m : TypeMarker} {st en : ℕ} :
    ∀ q ∈ ((db.filter (inRange m st en)).map (rowOut M s mk opts)).filterMap elemOf,
      q.stream.Pairwise (fun a b => b.rank ≤ a.rank) := by
  intro q hq
  obtain ⟨l, hl, hlq⟩ := List.mem_filterMap.1 hq
  obtain ⟨r, hr, rfl⟩ := List.mem_map.1 hl
  rw [elemOf_stream hlq]
  exact rowOut_ranked hd ho hpr M mk hr

/-- C22. Without a proximity point the results come out best first, whatever the limit:
falling relevance, and within a relevance falling score-distance. Missing: queries with a
proximity point, for which the claim is false (`C22_proximity_not_sorted`). -/
theorem C22_best_first_partial (db : SMap Bytes Bytes) (hd : LaidOut db)
    (s : Store) (hs : s.db = db) (M : KMerger) (H : Heap QueueElement.key) (chk : Bool)
    (mk : MatchKey) (hst : mk.phrase.start < 2 ^ 32) (opts : MatchOpts) (ho : OptsWf opts)
    (hpr : opts.proximity = none) (n : ℕ) (hlim : 1 ≤ n) (out : List MatchEntry)
    (hout : s.getMatching M H chk mk opts n = some out) :
    out.Pairwise (fun r r' => r'.entry.relev < r.entry.relev ∨
      (r'.entry.relev = r.entry.relev ∧ r'.scoredist ≤ r.scoredist)) := by
  have hn : NumbersOk opts s.radius := fun hne => absurd hpr hne
  replace hout := getMatching_relax hout
  obtain ⟨⟨st, en, m⟩, hp⟩ := plan_of_result hout
  obtain ⟨q, dropped, out', h1, h2, h3⟩ := getMatching_rows (H := H) (n := n)
    (queryRows_eq hd hs hp (fetchPlan_start hp hst)) _
    (rowElement_rows hd ho (boxFit_false _) hn M mk) (Or.inl hlim)
  rw [hout] at h1
  cases h1
  have := merged_ranked h3 (by
    intro t ht
    obtain ⟨e, he, rfl⟩ := List.mem_map.1 ht
    exact streams_ranked hd ho hpr M mk e
      (h2.perm.mem_iff.1 (List.mem_append_left _ he)))
  refine this.imp ?_
  intro a b hab
  unfold MatchEntry.rank at hab
  rw [Prod.Lex.toLex_le_toLex] at hab
  rcases hab with h | ⟨h, h'⟩
  · exact Or.inl h
  · refine Or.inr ⟨h, ?_⟩
    simp only at h'
    rw [Prod.Lex.toLex_le_toLex] at h'
    rcases h' with h' | ⟨h', _⟩
    · exact h'.le
    · exact h'.le

example : (Store.new exampleDb).getMatching listMerger (listHeap _) true ⟨.range 0 9, 1⟩
      ⟨some ⟨0, 0, 9, 9⟩, none, 6⟩ 9 =
    some [⟨⟨lit 0.96, 0, 0, 0, 0, 0⟩, false, 0, 0⟩, ⟨⟨lit 0.8, 1, 1, 2, 3, 4⟩, true, 0, 1⟩,
      ⟨⟨lit 0.6, 7, 2, 2, 9, 1⟩, true, 0, lit 7⟩, ⟨⟨lit 0.6, 7, 1, 1, 9, 1⟩, true, 0, lit 7⟩,
      ⟨⟨lit 0.4, 3, 5, 6, 7, 8⟩, true, 0, lit 3⟩] := by decide +kernel

theorem streams_rowLike {db : SMap Bytes Bytes} {s : Store} {opts : MatchOpts} (hd : LaidOut db)
    (ho : OptsWf opts) (hn : NumbersOk opts s.radius) (M : KMerger) (mk : MatchKey)
    {m : TypeMarker} {st en : ℕ} :
    ∀ q ∈ ((db.filter (inRange m st en)).map (rowOut M s mk opts)).filterMap elemOf,
      RowLike opts s.radius q.stream := by
  intro q hq
  obtain ⟨l, hl, hlq⟩ := List.mem_filterMap.1 hq
  obtain ⟨r, hr, rfl⟩ := List.mem_map.1 hl
  rw [elemOf_stream hlq]
  exact rowOut_rowLike hd ho hn M mk hr

/-- C22 with a proximity point (or without one): the results come out in falling order of relevance,
except that of two results in another language, one outside the radius may come before one within it,
and is then reported with 0.96 times the relevance of the other. Missing: the order of
score-distances, for which the claim is false (`C22_proximity_not_sorted`,
`C22_proximity_distance_not_sorted`). -/
theorem C22_relevance_partial (db : SMap Bytes Bytes) (hd : LaidOut db)
    (s : Store) (hs : s.db = db) (M : KMerger) (H : Heap QueueElement.key) (chk : Bool)
    (mk : MatchKey) (hst : mk.phrase.start < 2 ^ 32) (opts : MatchOpts) (ho : OptsWf opts)
    (hn : NumbersOk opts s.radius) (n : ℕ) (hlim : 1 ≤ n) (out : List MatchEntry)
    (hout : s.getMatching M H chk mk opts n = some out) :
    out.Pairwise (NotWorse opts s.radius) := by
  replace hout := getMatching_relax hout
  obtain ⟨⟨st, en, m⟩, hp⟩ := plan_of_result hout
  obtain ⟨q, dropped, out', h1, h2, h3⟩ := getMatching_rows (H := H) (n := n)
    (queryRows_eq hd hs hp (fetchPlan_start hp hst)) _
    (rowElement_rows hd ho (boxFit_false _) hn M mk) (Or.inl hlim)
  rw [hout] at h1
  cases h1
  refine merged_notWorse _ _ h3 ?_
  intro t ht
  obtain ⟨e, he, rfl⟩ := List.mem_map.1 ht
  exact streams_rowLike hd ho hn M mk e (h2.perm.mem_iff.1 (List.mem_append_left _ he))

/-- C22: results in the language come out in falling order of relevance. -/
theorem C22_in_language_partial (db : SMap Bytes Bytes) (hd : LaidOut db)
    (s : Store) (hs : s.db = db) (M : KMerger) (H : Heap QueueElement.key) (chk : Bool)
    (mk : MatchKey) (hst : mk.phrase.start < 2 ^ 32) (opts : MatchOpts) (ho : OptsWf opts)
    (hn : NumbersOk opts s.radius) (n : ℕ) (hlim : 1 ≤ n) (out : List MatchEntry)
    (hout : s.getMatching M H chk mk opts n = some out) :
    out.Pairwise (fun r r' => r.matchesLanguage = true ∨ r'.matchesLanguage = true →
      r'.entry.relev ≤ r.entry.relev) :=
  (C22_relevance_partial db hd s hs M H chk mk hst opts ho hn n hlim out hout).imp fun h hl => by
    rcases h with h | ⟨h1, h2, -⟩
    · exact h
    · rw [h1, h2] at hl
      rcases hl with hl | hl <;> cases hl

example : ((Store.openWith exampleDb 6 0 (lit 40) [] 0).getMatching listMerger (listHeap _) true
      ⟨.range 1 9, 259⟩ ⟨none, some (1, 2), 6⟩ 9).map
        (List.map fun r => (r.entry.relev, r.matchesLanguage)) =
    some [(1, true), (1, true), (lit 0.8, true), (lit 0.6, true), (lit 0.6, true),
      (lit 0.4, true)] := by decide +kernel

/-- A far tile with a high score and a near tile with a low score. -/
def orderWitness : Builder :=
  Builder.new.append ⟨1, 1⟩ [⟨1, 7, 200, 200, 7, 8⟩, ⟨1, 0, 5, 6, 9, 8⟩]

/-- C22 is false with a proximity point: for a language that does not match, a far tile
reported with relevance 0.96 comes out before a near tile reported with relevance 1. -/
theorem C22_proximity_not_sorted :
    orderWitness.Wf ∧ ∃ db, finish .id orderWitness = some db ∧ SmallRecords db ∧
      ((Store.openWith db 14 0 (lit 100) [] 0).getMatching listMerger (listHeap _) false
        ⟨.exact 1, 2⟩ ⟨none, some (60, 5), 14⟩ 10).map (List.map (fun r => (r.entry.relev, r.entry.id)))
      = some [(lit 0.96, 7), (1, 9)] := by
  refine ⟨wf_append wf_new (by decide) (by decide), (finish .id orderWitness).get (by decide +kernel),
    by simp, by decide +kernel, by decide +kernel⟩

/-- Two tiles of one score. -/
def distanceWitness : Builder :=
  Builder.new.append ⟨1, 1⟩ [⟨1, 1, 7, 8, 7, 8⟩, ⟨1, 1, 3, 7, 9, 8⟩]

/-- C22 is false with a proximity point also within one relevance and score: tiles are taken
in order of distance along the z-order curve, which is not the order of score-distance. -/
theorem C22_proximity_distance_not_sorted :
    distanceWitness.Wf ∧ ∃ db, finish .id distanceWitness = some db ∧ SmallRecords db ∧
      ∃ d d', (Store.openWith db 14 0 (lit 400) [] 0).getMatching listMerger (listHeap _) false
        ⟨.exact 1, 1⟩ ⟨none, some (7, 7), 14⟩ 10 =
          some [⟨⟨1, 1, 3, 7, 9, 8⟩, true, lit 4, d⟩, ⟨⟨1, 1, 7, 8, 7, 8⟩, true, 1, d'⟩] ∧ d < d' := by
  refine ⟨wf_append wf_new (by decide) (by decide),
    (finish .id distanceWitness).get (by decide +kernel), by simp, by decide +kernel,
    .fin (2856612169778479 / 35184372088832), .fin (2856612169778479 / 8796093022208),
    by decide +kernel, by decide +kernel⟩

/-! ## C23 -/

theorem row_perm_merger {db : SMap Bytes Bytes} {s : Store}
    {opts : MatchOpts} (hd : LaidOut db)
    (ho : OptsWf opts) (hn : NumbersOk opts s.radius) (M M' : KMerger) (mk : MatchKey)
    {m : TypeMarker} {st en : ℕ} {r : Bytes × Bytes} (hr : r ∈ db.filter (inRange m st en)) :
    (rowOut M s mk opts r).Perm (rowOut M' s mk opts r) := by
  obtain ⟨_, k, e, es, hk, hw, hbd, hre, _, _, hes, _, _, hp⟩ :=
    row_answers (chk := false) hd ho (boxFit_false _) hn M mk hr
  obtain ⟨_, k', e', es', hk', _, _, hre', _, _, hes', _, _, hp'⟩ :=
    row_answers (chk := false) hd ho (boxFit_false _) hn M' mk hr
  rw [hes] at hes'
  cases hes'
  have hkk : k = k' := by
    have h : k.dbKey m = k'.dbKey m := by
      have := hre.symm.trans hre'
      exact congrArg Prod.fst this
    exact (dbKey_inj hk hk' h).2
  subst hkk
  exact hp.trans hp'.symm

/-- All results, up to order, are those of the kept rows and those of the dropped rows. -/
theorem lost_rows {db : SMap Bytes Bytes} {s : Store} {opts : MatchOpts} {M M' : KMerger}
    {mk : MatchKey} {n : ℕ} (hd : LaidOut db) (ho : OptsWf opts) (hn : NumbersOk opts s.radius)
    {m : TypeMarker} {st en : ℕ} {q dropped : List QueueElement} {out all : List MatchEntry}
    (h2 : IsBest QueueElement.key n
      (((db.filter (inRange m st en)).map (rowOut M s mk opts)).filterMap elemOf) q dropped)
    (h3 : KMerge (fun a b : MatchEntry => b.sortKey < a.sortKey) (q.map QueueElement.stream) out)
    (g2 : all.Perm ((db.filter (inRange m st en)).flatMap (rowOut M' s mk opts))) :
    all.Perm (out ++ (dropped.map QueueElement.stream).flatten) := by
  refine g2.trans ?_
  have h4 : (db.filter (inRange m st en)).flatMap (rowOut M s mk opts) =
      ((((db.filter (inRange m st en)).map (rowOut M s mk opts)).filterMap elemOf).map
        QueueElement.stream).flatten := by
    rw [streams_flatten, List.flatMap_def]
  refine List.Perm.trans (l₂ := (db.filter (inRange m st en)).flatMap (rowOut M s mk opts)) ?_ ?_
  · exact List.Perm.flatMap_left _
      (fun r hr => row_perm_merger hd ho hn M' M mk hr)
  · rw [h4]
    refine ((h2.perm.symm.map QueueElement.stream).flatten).trans ?_
    rw [List.map_append, List.flatten_append]
    exact h3.perm.symm.append_right _

/-- C23. Without a proximity point, limiting a query to `n` rows does not change relevance,
score-distance and language match of its first `n` results: they agree with those of the
same query with any limit that covers every stored row, however heap and merge break ties. -/
theorem C23_row_limit_lossless (db : SMap Bytes Bytes) (hd : LaidOut db)
    (s : Store) (hs : s.db = db) (M M' : KMerger) (H H' : Heap QueueElement.key) (chk : Bool)
    (mk : MatchKey) (hst : mk.phrase.start < 2 ^ 32) (opts : MatchOpts) (ho : OptsWf opts)
    (hpr : opts.proximity = none) (n N : ℕ) (hn1 : 1 ≤ n) (hN : db.length ≤ N)
    (out all : List MatchEntry) (hout : s.getMatching M H chk mk opts n = some out)
    (hall : s.getMatching M' H' chk mk opts N = some all) :
    (out.take n).map (fun r => (r.entry.relev, r.scoredist, r.matchesLanguage)) =
      (all.take n).map (fun r => (r.entry.relev, r.scoredist, r.matchesLanguage)) := by
  have hn : NumbersOk opts s.radius := fun hne => absurd hpr hne
  replace hout := getMatching_relax hout
  replace hall := getMatching_relax hall
  obtain ⟨⟨st, en, m⟩, hp⟩ := plan_of_result hout
  obtain ⟨q, dropped, out', h1, h2, h3⟩ := getMatching_rows (H := H) (n := n)
    (queryRows_eq hd hs hp (fetchPlan_start hp hst)) _
    (rowElement_rows hd ho (boxFit_false _) hn M mk) (Or.inl hn1)
  obtain ⟨all', g1, g2, ss, g3, g4⟩ := getMatching_all (H := H') (n := N)
    (queryRows_eq hd hs hp (fetchPlan_start hp hst)) _
    (rowElement_rows hd ho (boxFit_false _) hn M' mk) ((List.length_filter_le _ _).trans hN)
  rw [hout] at h1
  rw [hall] at g1
  cases h1
  cases g1
  have hoS := merged_ranked h3 (by
    intro t ht
    obtain ⟨e, he, rfl⟩ := List.mem_map.1 ht
    exact streams_ranked hd ho hpr M mk e
      (h2.perm.mem_iff.1 (List.mem_append_left _ he)))
  have haS := merged_ranked g4 (by
    intro t ht
    obtain ⟨e, he, rfl⟩ := List.mem_map.1 (g3.mem_iff.1 ht)
    exact streams_ranked hd ho hpr M' mk e he)
  have hrows := lost_rows hd ho hn h2 h3 g2
  have hkey : (all.map MatchEntry.rank).take n = (out.map MatchEntry.rank).take n := by
    by_cases hdr : dropped = []
    · subst hdr
      have : Std.Antisymm (fun a b : F64 ×ₗ F64 ×ₗ Bool => b ≤ a) :=
        ⟨fun a b h1 h2 => le_antisymm h2 h1⟩
      rw [List.Perm.eq_of_pairwise' (r := fun a b : F64 ×ₗ F64 ×ₗ Bool => b ≤ a)
        (List.pairwise_map.2 haS) (List.pairwise_map.2 hoS)
        ((by simpa using hrows : all.Perm out).map _)]
    · refine take_sorted_eq (List.pairwise_map.2 hoS) (List.pairwise_map.2 haS)
        (dropped := ((dropped.map QueueElement.stream).flatten).map MatchEntry.rank)
        (heads := (q.map QueueElement.next).map MatchEntry.rank) ?_ ?_ ?_ ?_
      · rw [← List.map_append]; exact hrows.map _
      · have hsub : ∀ {l l' : List MatchEntry}, l.Subperm l' →
            (l.map MatchEntry.rank).Subperm (l'.map MatchEntry.rank) :=
          fun ⟨l, h1, h2⟩ => ⟨l.map _, h1.map _, h2.map _⟩
        refine hsub ?_
        refine List.Subperm.trans ?_ h3.perm.symm.subperm
        refine List.Sublist.subperm ?_
        clear h2 h3 hrows
        induction q with
        | nil => exact List.nil_sublist _
        | cons e t ih =>
          rw [List.map_cons, List.map_cons, List.flatten_cons, QueueElement.stream]
          exact List.Sublist.cons_cons _ (ih.trans (List.sublist_append_right _ _))
      · rw [List.length_map, List.length_map, h2.size]
        have := h2.perm.length_eq
        rw [List.length_append, h2.size] at this
        have := List.length_pos_of_ne_nil hdr
        omega
      · intro h hh d hd'
        obtain ⟨x, hx, rfl⟩ := List.mem_map.1 hh
        obtain ⟨k, hk, rfl⟩ := List.mem_map.1 hx
        obtain ⟨y, hy, rfl⟩ := List.mem_map.1 hd'
        obtain ⟨t, ht, hyt⟩ := List.mem_flatten.1 hy
        obtain ⟨e, he, rfl⟩ := List.mem_map.1 ht
        have h5 := streams_ranked (s := s) hd ho hpr M mk e
          (h2.perm.mem_iff.1 (List.mem_append_right _ he))
        have h6 : e.next.rank ≤ k.next.rank := rank_le_of_sortKey_le (h2.best k hk e he)
        unfold QueueElement.stream at h5 hyt
        rcases List.mem_cons.1 hyt with rfl | hyt
        · exact h6
        · exact ((List.pairwise_cons.1 h5).1 y hyt).trans h6
  rw [← List.map_take, ← List.map_take] at hkey
  have := congrArg (List.map (fun k : F64 ×ₗ F64 ×ₗ Bool =>
    ((ofLex k).1, (ofLex (ofLex k).2).1, (ofLex (ofLex k).2).2))) hkey
  rw [List.map_map, List.map_map] at this
  exact this.symm

example : ((Store.new exampleDb).getMatching listMerger (listHeap _) true ⟨.range 0 9, 1⟩
      ⟨none, none, 6⟩ 2).map (fun l => (l.take 2).map (fun r => (r.entry.relev, r.entry.id))) =
    some [(1, 2 ^ 24 - 1), (lit 0.96, 0)] ∧
    ((Store.new exampleDb).getMatching listMerger (listHeap _) true ⟨.range 0 9, 1⟩
      ⟨none, none, 6⟩ 2).map List.length = some 5 ∧
    ((Store.new exampleDb).getMatching listMerger (listHeap _) true ⟨.range 0 9, 1⟩
      ⟨none, none, 6⟩ 9).map List.length = some 6 := by decide +kernel

/-- C23 for every query, with or without a proximity point: what the limit of `n` rows leaves out is
not better in relevance than any of the first `n` results, except as in C22; and if anything is left
out there are `n` results. -/
theorem C23_lost_not_better (db : SMap Bytes Bytes) (hd : LaidOut db)
    (s : Store) (hs : s.db = db) (M M' : KMerger) (H H' : Heap QueueElement.key) (chk : Bool)
    (mk : MatchKey) (hst : mk.phrase.start < 2 ^ 32) (opts : MatchOpts) (ho : OptsWf opts)
    (hn : NumbersOk opts s.radius) (n N : ℕ) (hn1 : 1 ≤ n) (hN : db.length ≤ N)
    (out all : List MatchEntry) (hout : s.getMatching M H chk mk opts n = some out)
    (hall : s.getMatching M' H' chk mk opts N = some all) :
    ∃ lost, all.Perm (out ++ lost) ∧ (lost ≠ [] → n ≤ out.length) ∧
      ∀ r ∈ out.take n, ∀ d ∈ lost, NotWorse opts s.radius r d := by
  replace hout := getMatching_relax hout
  replace hall := getMatching_relax hall
  obtain ⟨⟨st, en, m⟩, hp⟩ := plan_of_result hout
  obtain ⟨q, dropped, out', h1, h2, h3⟩ := getMatching_rows (H := H) (n := n)
    (queryRows_eq hd hs hp (fetchPlan_start hp hst)) _
    (rowElement_rows hd ho (boxFit_false _) hn M mk) (Or.inl hn1)
  obtain ⟨all', g1, g2, ss, g3, g4⟩ := getMatching_all (H := H') (n := N)
    (queryRows_eq hd hs hp (fetchPlan_start hp hst)) _
    (rowElement_rows hd ho (boxFit_false _) hn M' mk) ((List.length_filter_le _ _).trans hN)
  rw [hout] at h1
  rw [hall] at g1
  cases h1
  cases g1
  have hrows := lost_rows hd ho hn h2 h3 g2
  have hrow : ∀ e ∈ q ++ dropped, RowLike opts s.radius e.stream := fun e he =>
    streams_rowLike hd ho hn M mk e (h2.perm.mem_iff.1 he)
  have hsize : dropped ≠ [] → q.length = n := by
    intro hdr
    have h4 := h2.perm.length_eq
    rw [List.length_append, h2.size] at h4
    have := List.length_pos_of_ne_nil hdr
    have := h2.size
    omega
  refine ⟨_, hrows, ?_, ?_⟩
  · intro hne
    have hdr : dropped ≠ [] := by rintro rfl; exact hne rfl
    rw [← hsize hdr, h3.perm.length_eq, List.length_flatten, List.map_map]
    clear h2 h3 hrows hrow hsize
    induction q with
    | nil => simp
    | cons e t ih =>
      simp only [List.map_cons, List.sum_cons, List.length_cons, Function.comp_apply,
        QueueElement.stream] at ih ⊢
      omega
  · intro r hr d hd'
    obtain ⟨t, ht, hyt⟩ := List.mem_flatten.1 hd'
    obtain ⟨e, he, rfl⟩ := List.mem_map.1 ht
    have hdr : dropped ≠ [] := by rintro rfl; cases he
    have hfirst := h3.first (key := MatchEntry.sortKey) e.next.sortKey n (by
      rw [List.countP_map, List.countP_eq_length.2, hsize hdr]
      intro k hk
      simp only [Function.comp_apply, QueueElement.stream, List.head?_cons, Option.any_some,
        decide_eq_true_eq]
      exact h2.best k hk e he) r hr
    have hre := hrow e (List.mem_append_right _ he)
    obtain ⟨t', ht', hrt⟩ := List.mem_flatten.1 (h3.perm.mem_iff.1 (List.mem_of_mem_take hr))
    obtain ⟨k, hk, rfl⟩ := List.mem_map.1 ht'
    refine notWorse_of_head ((hrow k (List.mem_append_left _ hk)).stored r hrt)
      (hre.stored e.next (List.mem_cons_self ..)) (hre.stored d hyt)
      (relev_le_of_sortKey_le hfirst) ?_ (hre.lang _ (List.mem_cons_self ..) _ hyt)
    unfold QueueElement.stream at hyt
    rcases List.mem_cons.1 hyt with rfl | hyt
    · exact le_rfl
    · have := hre.falls
      unfold QueueElement.stream at this
      exact (List.pairwise_cons.1 this).1 d hyt

example : ((Store.openWith exampleDb 6 0 (lit 40) [] 0).getMatching listMerger (listHeap _) true
      ⟨.range 0 9, 1⟩ ⟨none, some (1, 2), 6⟩ 2).map (List.map fun r => (r.entry.relev, r.entry.id)) =
    some [(1, 2 ^ 24 - 1), (lit 0.96, 0), (lit 0.6, 9), (lit 0.6, 9), (lit 0.4, 7)] ∧
    ((Store.openWith exampleDb 6 0 (lit 40) [] 0).getMatching listMerger (listHeap _) true
      ⟨.range 0 9, 1⟩ ⟨none, some (1, 2), 6⟩ 9).map (List.map fun r => (r.entry.relev, r.entry.id)) =
    some [(1, 2 ^ 24 - 1), (lit 0.96, 0), (lit 0.8, 3), (lit 0.6, 9), (lit 0.6, 9), (lit 0.4, 7)] := by decide +kernel

end Carmen
