import Verif.Lemmas.Query
import Verif.Props.Builder

/-!
# The answer of a query in terms of reading keys back
-/

namespace Carmen
open Format Spec Builder

/-- What a row contributes. -/
def rowOut (M : KMerger) (s : Store) (mk : MatchKey) (opts : MatchOpts) (r : Bytes × Bytes) :
    List MatchEntry :=
  ((mk.matchesLanguage r.1).bind (fun ml => decodeMatching M false opts ml s.radius r.2)).getD []

theorem fetchPlan_start {s : Store} {chk : Bool} {phrase : MatchPhrase} {st en : ℕ}
    {m : TypeMarker} (hp : s.fetchPlan chk phrase = some (st, en, m))
    (hst : phrase.start < 2 ^ 32) : st < 2 ^ 32 := by
  cases phrase with
  | exact id =>
    unfold Store.fetchPlan at hp
    simp only at hp
    split at hp
    · simp at hp
    · simp only [Option.some.injEq, Prod.mk.injEq] at hp
      rw [← hp.1]; exact hst
  | range a c =>
    unfold Store.fetchPlan at hp
    simp only at hp
    split at hp <;>
    · simp only [Option.some.injEq, Prod.mk.injEq] at hp
      rw [← hp.1]; exact hst

section
variable {o : IterOrder} {b : Builder} {db : SMap Bytes Bytes} {s : Store} {opts : MatchOpts}
  {chk : Bool}

theorem row_answers (hd : LaidOut db)
    (ho : OptsWf opts) (hbf : BoxFit chk opts) (hn : NumbersOk opts s.radius) (M : KMerger) (mk : MatchKey)
    {m : TypeMarker} {st en : ℕ} {r : Bytes × Bytes} (hr : r ∈ db.filter (inRange m st en)) :
    ∃ rec k v es, k.Wf ∧ ReadsAs v rec ∧ ShapeOk (shape rec) ∧ r = (GridKey.dbKey m k, v) ∧
      st ≤ k.phraseId ∧ k.phraseId < en ∧ decodeValue r.2 = some es ∧
      decodeMatching M chk opts (langMatches mk.langSet k.langSet) s.radius r.2 =
        some (rowOut M s mk opts r) ∧
      s.rowElement M chk mk opts r = some (elemOf (rowOut M s mk opts r)) ∧
      (rowOut M s mk opts r).Perm ((es.filter (fun e => decide (InBox opts e))).map
        (report opts s.radius (langMatches mk.langSet k.langSet))) := by
  obtain ⟨hr1, hr2⟩ := List.mem_filter.1 hr
  rcases laid_row hd hr1 with ⟨m', k, v, rec, hk, rfl, hv, hsh⟩ | hbk
  · obtain ⟨rfl, h1, h2⟩ := (inRange_dbKey hk _).1 hr2
    obtain ⟨es, out, h3, h4, h5⟩ := record_query M hv hsh
      (langMatches mk.langSet k.langSet) ho hbf hn
    have hro : rowOut M s mk opts (k.dbKey m', v) = out := by
      unfold rowOut
      rw [matchesLanguage_spec mk m' hk, Option.bind_some, decodeMatching_relax h4]; rfl
    rw [hro]
    refine ⟨rec, k, v, es, hk, hv, hsh, rfl, h1, h2, h3, h4, ?_, h5⟩
    unfold Store.rowElement
    rw [matchesLanguage_spec mk m' hk]
    simp only [Option.bind_eq_bind, Option.bind_some]
    rw [h4]
    cases out <;> rfl
  · have : inRange m st en r = false := by
      unfold inRange; rw [hbk, matchesKey_bounds]; rfl
    rw [this] at hr2
    exact absurd hr2 (by simp)

theorem rowElement_rows (hd : LaidOut db)
    (ho : OptsWf opts) (hbf : BoxFit chk opts) (hn : NumbersOk opts s.radius) (M : KMerger) (mk : MatchKey)
    {m : TypeMarker} {st en : ℕ} : ∀ r ∈ db.filter (inRange m st en),
      s.rowElement M chk mk opts r = some (elemOf (rowOut M s mk opts r)) := by
  intro r hr
  obtain ⟨_, _, _, _, _, _, _, _, _, _, _, _, h, _⟩ := row_answers hd ho hbf hn M mk hr
  exact h

/-- The rows of a query over single phrases are the stored keys in the range. -/
theorem single_rows_perm (hb : b.Wf) (hfin : finish o b = some db) {st en : ℕ}
    {ks : List GridKey} (hnd : ks.Nodup)
    (hks : ∀ k, k ∈ ks ↔ k ∈ b.data.map Prod.fst ∧ st ≤ k.phraseId ∧ k.phraseId < en) :
    (db.filter (inRange .singlePhrase st en)).Perm
      (ks.map (fun k => (k.dbKey .singlePhrase,
        (SMap.find (k.dbKey .singlePhrase) db).getD []))) := by
  have hsort := finish_sorted hfin
  have hkw : ∀ k ∈ ks, k.Wf := by
    intro k hk
    obtain ⟨p, hp, rfl⟩ := List.mem_map.1 ((hks k).1 hk).1
    exact hb.keys p hp
  rw [List.perm_ext_iff_of_nodup]
  · intro r
    rw [List.mem_filter, List.mem_map]
    constructor
    · rintro ⟨hr1, hr2⟩
      rcases finish_rows hb hfin hr1 with ⟨k, e, hm, rfl⟩ | ⟨k, hk, hk'⟩ | hbk
      · obtain ⟨_, h1, h2⟩ := (inRange_dbKey (hb.keys _ hm) _).1 hr2
        refine ⟨k, (hks k).2 ⟨List.mem_map.2 ⟨_, hm, rfl⟩, h1, h2⟩, ?_⟩
        rw [(SMap.mem_iff_find hsort).1 hr1]; rfl
      · obtain ⟨k1, v⟩ := r
        simp only at hk'
        subst hk'
        obtain ⟨hh, _⟩ := (inRange_dbKey hk _).1 hr2
        cases hh
      · have : inRange .singlePhrase st en r = false := by
          unfold inRange; rw [hbk, matchesKey_bounds]; rfl
        rw [this] at hr2
        exact absurd hr2 (by simp)
    · rintro ⟨k, hk, rfl⟩
      obtain ⟨hkd, h1, h2⟩ := (hks k).1 hk
      obtain ⟨p, hp, rfl⟩ := List.mem_map.1 hkd
      have hf := find_finish hb hfin (hkw _ hk)
      rw [(SMap.mem_iff_find hb.sorted).1 hp, Option.map_some] at hf
      refine ⟨?_, (inRange_dbKey (hkw _ hk) _).2 ⟨rfl, h1, h2⟩⟩
      rw [SMap.mem_iff_find hsort, hf]; rfl
  · exact (List.Nodup.of_map Prod.fst hsort.keys_nodup).filter _
  · refine List.Nodup.map_on ?_ hnd
    intro k hk k' hk' he
    exact (dbKey_inj (hkw k hk) (hkw k' hk') (congrArg Prod.fst he)).2

/-- A query over single phrases with enough room: exactly the reports of what reading the
keys back gives. -/
theorem query_exact (hb : b.Wf) (hfin : finish o b = some db) (hsmall : SmallRecords db)
    (hs : s.db = db) (ho : OptsWf opts) (hn : NumbersOk opts s.radius) (M : KMerger)
    (H : Heap QueueElement.key) (chk : Bool) (hbf : BoxFit chk opts) (mk : MatchKey) {st en : ℕ}
    (hp : s.fetchPlan chk mk.phrase = some (st, en, .singlePhrase)) (hst : st < 2 ^ 32)
    {ks : List GridKey} (hnd : ks.Nodup)
    (hks : ∀ k, k ∈ ks ↔ k ∈ b.data.map Prod.fst ∧ st ≤ k.phraseId ∧ k.phraseId < en)
    {n : ℕ} (hlim : ks.length ≤ n) (ent : GridKey → List GridEntry)
    (hent : ∀ k ∈ ks, s.get k = some (some (ent k))) :
    ∃ out, s.getMatching M H chk mk opts n = some out ∧
      out.Perm (ks.flatMap (fun k => ((ent k).filter (fun e => decide (InBox opts e))).map
        (report opts s.radius (langMatches mk.langSet k.langSet)))) := by
  have hrows := queryRows_eq (laidOut_finish hb hfin hsmall) hs hp hst
  have hperm := single_rows_perm hb hfin hnd hks
  have hkw : ∀ k ∈ ks, k.Wf := by
    intro k hk
    obtain ⟨p, hp, rfl⟩ := List.mem_map.1 ((hks k).1 hk).1
    exact hb.keys p hp
  obtain ⟨out, h1, h2, _⟩ := getMatching_all (H := H) (n := n) hrows (rowOut M s mk opts)
    (rowElement_rows (laidOut_finish hb hfin hsmall) ho hbf hn M mk)
    (by rw [hperm.length_eq, List.length_map]; exact hlim)
  refine ⟨out, h1, h2.trans ?_⟩
  refine (hperm.flatMap_right _).trans ?_
  rw [List.flatMap_map]
  refine perm_flatMap ?_
  intro k hk
  have hmem := hperm.mem_iff.2 (List.mem_map.2 ⟨k, hk, rfl⟩)
  obtain ⟨_, k', e, es, hk', _, _, hr, _, _, hdec, _, _, hp'⟩ :=
    row_answers (laidOut_finish hb hfin hsmall) ho hbf hn M mk hmem
  have hkk : k = k' := (dbKey_inj (hkw k hk) hk' (congrArg Prod.fst hr)).2
  subst hkk
  have hg := hent k hk
  unfold Store.get at hg
  rw [hs] at hg
  have hfind := (SMap.mem_iff_find (finish_sorted hfin)).1 (List.mem_filter.1 hmem).1
  rw [hfind] at hg
  simp only at hg hdec
  rw [hdec] at hg
  simp only [Option.map_some, Option.some.injEq] at hg
  subst hg
  exact hp'

end

/-! ## Scores at most fifteen -/

/-- No group with tiles has a score above fifteen. -/
def LowScores (e : BuilderEntry) : Prop := ∀ g ∈ e, g.2 = [] ∨ g.1 < 64

theorem lowScores_nil : LowScores [] := by intro g hg; simp at hg

theorem lowScores_extend {e : BuilderEntry} (he : LowScores e) {values : List GridEntry}
    (hv : ∀ v ∈ values, v.score ≤ 15) : LowScores (extendEntries e values) := by
  unfold extendEntries LowScores
  have hk : ∀ g ∈ groupBy (fun v : GridEntry => rsByte v.relev v.score) values, g.1 < 64 := by
    intro g hg
    have hne := (groupBy_isGrouping (fun v : GridEntry => rsByte v.relev v.score)
      values).nonempty g hg
    obtain ⟨v, hv'⟩ := List.exists_mem_of_ne_nil _ hne
    rw [← groupBy_key hg hv']
    have : v ∈ values := by
      rw [← groupBy_concat (fun v : GridEntry => rsByte v.relev v.score) values]
      exact List.mem_flatMap.2 ⟨g, hg, hv'⟩
    have h1 := hv v this
    have h2 := relevToInt_lt v.relev
    rw [rsByte_eq (by omega)]
    omega
  refine hmap_foldl_forall (fun g : ℕ × List GridEntry => g.1) [] _
    (fun k (inner : HMap ℕ (List ℕ)) => inner = [] ∨ k < 64) _ e he ?_ ?_
  · intro g hg; exact Or.inl rfl
  · intro g hg _ _; exact Or.inr (hk g hg)

theorem lowScores_compact {e : BuilderEntry} (he : LowScores e) {relev : F64}
    {score id hash : ℕ} {tiles : List (ℕ × ℕ)} (h : tiles = [] ∨ score ≤ 15) :
    LowScores (compactEntry relev score id hash tiles e) := by
  unfold compactEntry LowScores
  refine HMap.forall_upsert (P := fun k (inner : HMap ℕ (List ℕ)) => inner = [] ∨ k < 64)
    he (Or.inl rfl) ?_
  intro inner hi
  rcases h with rfl | h
  · exact hi
  · right
    have h2 := relevToInt_lt relev
    rw [rsByte_eq (by omega)]
    omega

/-- All rows of the builder have low scores. -/
def Builder.Low (b : Builder) : Prop := ∀ r ∈ b.data, LowScores r.2

theorem low_call {b b' : Builder} (hb : b.Wf) (hn : b.Low) {c : Call}
    (hc : ∀ e ∈ c.entries, e.score ≤ 15) (h : b.call c = some b') : b'.Low := by
  cases c with
  | insert k es =>
    simp only [Builder.call, Option.some.injEq] at h
    subst h
    intro r hr
    have hr' := (SMap.mem_iff_find (SMap.sorted_insert hb.sorted) (k := r.1) (v := r.2)).1 hr
    rw [SMap.find_insert] at hr'
    by_cases h : r.1 = k
    · rw [if_pos h] at hr'
      simp only [Option.some.injEq] at hr'
      rw [← hr']
      exact lowScores_extend lowScores_nil hc
    · rw [if_neg h] at hr'
      exact hn r ((SMap.mem_iff_find hb.sorted).2 hr')
  | append k es =>
    simp only [Builder.call, Option.some.injEq] at h
    subst h
    intro r hr
    have hr : r ∈ SMap.upsert k [] (fun e => extendEntries e es) b.data := hr
    rcases mem_smap_upsert hb.sorted hr with h | ⟨_, e, he, h⟩
    · exact hn r h
    · rw [h]
      rcases he with rfl | he
      · exact lowScores_extend lowScores_nil hc
      · exact lowScores_extend (hn (k, e) he) hc
  | compactAppend k relev score id hash tiles =>
    simp only [Builder.call, Option.some.injEq] at h
    subst h
    have hs : tiles = [] ∨ score ≤ 15 := by
      cases tiles with
      | nil => exact Or.inl rfl
      | cons p t =>
        exact Or.inr (hc ⟨relev, score, p.1, p.2, id, hash⟩ (List.mem_cons_self ..))
    intro r hr
    have hr : r ∈ SMap.upsert k [] (compactEntry relev score id hash tiles) b.data := hr
    rcases mem_smap_upsert hb.sorted hr with h | ⟨_, e, he, h⟩
    · exact hn r h
    · rw [h]
      rcases he with rfl | he
      · exact lowScores_compact lowScores_nil hs
      · exact lowScores_compact (hn (k, e) he) hs
  | renumber map =>
    have hok : (b.renumber map).2 = .ok () ∧ b' = (b.renumber map).1 := by
      unfold Builder.call at h
      simp only at h
      cases hx : b.renumber map with
      | mk x y =>
        rw [hx] at h
        cases y with
        | error e => simp at h
        | ok u => simp only [Option.some.injEq] at h; exact ⟨rfl, h.symm⟩
    obtain ⟨hok, rfl⟩ := hok
    obtain ⟨h1, _, h3, h4⟩ := renumberLoop_ok b.data SMap.sorted_nil hok
    intro r hr
    have hf := (SMap.mem_iff_find h1 (k := r.1) (v := r.2)).1 hr
    rcases (h4 r.1 r.2).1 hf with h | ⟨k, hk, _⟩
    · simp [SMap.find] at h
    · exact hn (k, r.2) hk
  | loadBounds bs =>
    simp only [Builder.call, Option.some.injEq] at h
    subst h
    exact hn

theorem low_runFrom {b b' : Builder} {s : Content} (hr : Refines b s) (hn : b.Low)
    {cs : List Call} (hc : ∀ c ∈ cs, c.Wf) (hcn : ∀ c ∈ cs, ∀ e ∈ c.entries, e.score ≤ 15)
    (h : b.runFrom cs = some b') : b'.Low := by
  induction cs generalizing b s with
  | nil => simp only [Builder.runFrom, Option.some.injEq] at h; subst h; exact hn
  | cons c t ih =>
    unfold Builder.runFrom at h
    cases hb : b.call c with
    | none => rw [hb] at h; cases h
    | some b₁ =>
      rw [hb] at h
      exact ih (hr.call (hc c (by simp)) hb) (low_call hr.wf hn (hcn c (by simp)) hb)
        (fun c hc' => hc c (by simp [hc'])) (fun c hc' => hcn c (by simp [hc'])) h

theorem low_run {b : Builder} {cs : List Call} (hc : ∀ c ∈ cs, c.Wf)
    (hcn : ∀ c ∈ cs, ∀ e ∈ c.entries, e.score ≤ 15) (h : Builder.run cs = some b) : b.Low :=
  low_runFrom refines_new (by intro r hr; simp [Builder.new] at hr) hc hcn h

theorem low_record {o : IterOrder} {e : BuilderEntry} (hl : LowScores e)
    {rec : List (RelevScore × List (Coord × List ℕ))} (hsh : shape rec = normEntry o e) :
    ∀ x ∈ rec, x.2 = [] ∨ x.1.relevScore < 64 := by
  intro x hx
  have : (x.1.relevScore, x.2.map (fun c => (c.1.coord, c.2))) ∈ normEntry o e := by
    rw [← hsh]; exact List.mem_map.2 ⟨x, hx, rfl⟩
  obtain ⟨g, hg, hge⟩ := List.mem_map.1 this
  rw [mem_sortDesc_run] at hg
  have h1 : g.1 = x.1.relevScore := congrArg Prod.fst hge
  have h2 : (sortDesc (o.run g.2)).map (fun c => (c.1, normIds c.2)) =
      x.2.map (fun c => (c.1.coord, c.2)) := congrArg Prod.snd hge
  rcases hl g hg with h0 | h0
  · left
    have h3 : x.2.map (fun c => (c.1.coord, c.2)) = [] := by
      rw [← h2, h0]
      have : o.run ([] : HMap ℕ (List ℕ)) = [] := List.perm_nil.1 (o.perm _)
      rw [this]; rfl
    exact List.map_eq_nil_iff.1 h3
  · right; omega

/-- Without a proximity point a record with low scores answers in stored order. -/
theorem record_query_order (M : KMerger) {o : IterOrder} {e : BuilderEntry} (hw : EntryWf e)
    (hb : EntryBounds e) (hl : LowScores e) (hlen : (encodeValue o e).length < 2 ^ 32)
    {opts : MatchOpts} {radius : F64} (ml : Bool) (ho : OptsWf opts) (chk : Bool) (hbf : BoxFit chk opts)
    (hpr : opts.proximity = none) {es : List GridEntry}
    (hes : decodeValue (encodeValue o e) = some es) :
    decodeMatching M chk opts ml radius (encodeValue o e) =
      some ((es.filter (fun e => decide (InBox opts e))).map (report opts radius ml)) := by
  obtain ⟨rec, hr, hsh⟩ := encodeValue_readsAs o e hb hlen
  have hs : ShapeOk (shape rec) := by rw [hsh]; exact shapeOk_normEntry hw hb
  rw [hr.decodeValue] at hes
  cases hes
  exact decodeMatching_order M ml ho hbf hpr hr hs (low_record hl hsh)

end Carmen
