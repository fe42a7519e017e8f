import Verif.Spec.Frame
import Verif.Props.Layout
import Verif.Lemmas.FinishCongr
import Verif.Model.Coalesce

/-!
# C83: a query depends on what it asks for only
-/

namespace Carmen
open Format Spec Builder

theorem Spec.SameUnder.symm {P : ℕ → Prop} {cs cs' : List Call} (h : SameUnder P cs cs') :
    SameUnder P cs' cs := by
  intro k hk
  obtain ⟨h1, h2⟩ := h k hk
  exact ⟨h1.symm, fun es es' he he' e => (h2 es' es he' he e).symm⟩

theorem Spec.SameUnder.mono {P Q : ℕ → Prop} {cs cs' : List Call} (h : SameUnder P cs cs')
    (hq : ∀ p, Q p → P p) : SameUnder Q cs cs' := fun k hk => h k (hq _ hk)

/-- Running the calls `cs` on a new builder gives `b`, and finishing it (`o`: the order of its hash
maps) leaves `db`. (`compact_append` without tiles is left out: it leaves an empty group, see C08.) -/
structure Made (cs : List Call) (o : IterOrder) (b : Builder) (db : SMap Bytes Bytes) : Prop where
  wf : ∀ c ∈ cs, c.Wf
  nonEmpty : ∀ c ∈ cs, c.NonEmpty
  run : Builder.run cs = some b
  fin : finish o b = some db

variable {cs cs' : List Call} {o o' : IterOrder} {b b' : Builder} {db db' : SMap Bytes Bytes}

theorem Made.find_same (h : Made cs o b db) (h' : Made cs' o' b' db') {P : ℕ → Prop}
    (hs : SameUnder P cs cs') {k : GridKey} (hk : P k.phraseId) {e : BuilderEntry}
    (he : (k, e) ∈ b.data) : ∃ e', (k, e') ∈ b'.data ∧ SameEntry e e' := by
  have hr := refines_run h.wf h.run
  have hr' := refines_run h'.wf h'.run
  obtain ⟨es, h1, h2⟩ := data_content hr he
  obtain ⟨h3, h4⟩ := hs k hk
  cases hes' : Content.run cs' k with
  | none => rw [h3.2 hes'] at h1; cases h1
  | some es' =>
    obtain ⟨e', he', h5⟩ := content_find hr' hes'
    refine ⟨e', he', (hr.wf.entries _ he).1, (hr'.wf.entries _ he').1,
      ne_run h.wf h.nonEmpty h.run _ he, ne_run h'.wf h'.nonEmpty h'.run _ he', ?_⟩
    intro rs z i
    rw [h2 rs z i, h5 rs z i]
    simp only [h4 es es' h1 hes']

theorem Made.phrase_row (h : Made cs o b db) (h' : Made cs' o' b' db') {P : ℕ → Prop}
    (hs : SameUnder P cs cs') {k : GridKey} (hw : k.Wf) (hk : P k.phraseId) :
    SMap.find (k.dbKey .singlePhrase) db = SMap.find (k.dbKey .singlePhrase) db' := by
  have hb := (refines_run h.wf h.run).wf
  have hb' := (refines_run h'.wf h'.run).wf
  rw [find_finish hb h.fin hw, find_finish hb' h'.fin hw]
  cases hf : SMap.find k b.data with
  | some e =>
    obtain ⟨e', he', hse⟩ := h.find_same h' hs hk ((SMap.mem_iff_find hb.sorted).2 hf)
    rw [(SMap.mem_iff_find hb'.sorted).1 he', Option.map_some, Option.map_some, hse.encode o o']
  | none =>
    cases hf' : SMap.find k b'.data with
    | none => rfl
    | some e' =>
      obtain ⟨e, he, _⟩ := h'.find_same h hs.symm hk ((SMap.mem_iff_find hb'.sorted).2 hf')
      rw [(SMap.mem_iff_find hb.sorted).1 he] at hf; cases hf

theorem noEmpty_langMap {o : IterOrder} {rows : List (GridKey × BuilderEntry)}
    (h : ∀ r ∈ rows, NoEmpty r.2) : ∀ le ∈ langMap o rows, NoEmpty le.2 := by
  refine hmap_foldl_forall (fun kv : GridKey × BuilderEntry => kv.1.langSet) []
    (fun kv d => copyEntries o kv.2 d) (fun _ e => NoEmpty e) rows [] (by simp) ?_ ?_
  · intro a _; exact noEmpty_nil
  · intro a ha v hv; exact noEmpty_copyEntries (h a ha) hv

theorem Made.bin_row (h : Made cs o b db) (h' : Made cs' o' b' db')
    (hbounds : b.bounds = b'.bounds) (hasc : b.bounds.Pairwise (· ≤ ·)) (hne : b.bounds ≠ [])
    {k : GridKey} (hw : k.Wf)
    (hs : SameUnder (fun p => InBin b.bounds p k.phraseId) cs cs') {v : Bytes}
    (hv : (k.dbKey .prefixBin, v) ∈ db) : (k.dbKey .prefixBin, v) ∈ db' := by
  have hr := refines_run h.wf h.run
  have hr' := refines_run h'.wf h'.run
  obtain ⟨g, hg, hgx, e, he, rfl⟩ := (bin_row_iff hr.wf h.fin hasc hne hw).1 hv
  have hasc' := hbounds ▸ hasc
  have hne' := hbounds ▸ hne
  -- the rows of the group are the ones whose phrases are in the bin
  have hin : ∀ row ∈ g.2.map (·.2), InBin b.bounds row.1.phraseId k.phraseId ∧ row ∈ b.data := by
    intro row hrow
    obtain ⟨r, hr1, rfl⟩ := List.mem_map.1 hrow
    obtain ⟨y, hy, hbf⟩ := group_binFor hr.wf h.fin hasc hne hg hr1
    rw [hgx] at hy
    cases hy
    exact ⟨binFor_iff.1 hbf, binGroups_data hg hr1⟩
  have hdata : ∀ row ∈ b'.data, InBin b'.bounds row.1.phraseId k.phraseId →
      ∃ g' ∈ b'.binGroups.1, g'.1 = some k.phraseId ∧ row ∈ g'.2.map (·.2) := by
    intro row hrow hx
    exact data_group hr'.wf h'.fin hasc' hne' (k := row.1) (e := row.2) hrow (binFor_iff.2 hx)
  obtain ⟨row, hrow, hl⟩ := langMap_langs he
  obtain ⟨hrin, hrd⟩ := hin row hrow
  obtain ⟨e₁, he₁, _⟩ := h.find_same h' hs (k := row.1) (e := row.2) hrin hrd
  obtain ⟨g', hg', hgx', hmem'⟩ := hdata _ he₁ (hbounds ▸ hrin)
  obtain ⟨e', he'⟩ := langMap_has_lang o' (g'.2.map (·.2)) ⟨_, hmem', rfl⟩
  simp only at hl he'
  rw [hl] at he'
  have hin' : ∀ row ∈ g'.2.map (·.2), InBin b.bounds row.1.phraseId k.phraseId ∧
      row ∈ b'.data := by
    intro row hrow
    obtain ⟨r, hr1, rfl⟩ := List.mem_map.1 hrow
    obtain ⟨y, hy, hbf⟩ := group_binFor hr'.wf h'.fin hasc' hne' hg' hr1
    rw [hgx'] at hy
    cases hy
    exact ⟨hbounds ▸ binFor_iff.1 hbf, binGroups_data hg' hr1⟩
  have hgw := group_wf hr.wf hg
  have hgw' := group_wf hr'.wf hg'
  have hsame : SameEntry e e' := by
    refine ⟨(langMap_entries hgw _ he).1, (langMap_entries hgw' _ he').1,
      noEmpty_langMap (fun r hr1 => ne_run h.wf h.nonEmpty h.run _ (hin r hr1).2) _ he,
      noEmpty_langMap (fun r hr1 => ne_run h'.wf h'.nonEmpty h'.run _ (hin' r hr1).2) _ he', ?_⟩
    intro rs z i
    rw [langMap_has (fun r hr => (hgw r hr).1) he, langMap_has (fun r hr => (hgw' r hr).1) he']
    constructor
    · rintro ⟨r, hr1, hl1, hh⟩
      obtain ⟨h1, h2⟩ := hin r hr1
      obtain ⟨e₂, he₂, hse⟩ := h.find_same h' hs (k := r.1) (e := r.2) h1 h2
      obtain ⟨g₂, hg₂, hgx₂, hm₂⟩ := hdata _ he₂ (hbounds ▸ h1)
      have := groups_distinct hr'.wf h'.fin hasc' hne' hg₂ hg' (by rw [hgx₂, hgx'])
      subst this
      exact ⟨_, hm₂, hl1, (hse.has rs z i).1 hh⟩
    · rintro ⟨r, hr1, hl1, hh⟩
      obtain ⟨h1, h2⟩ := hin' r hr1
      obtain ⟨e₂, he₂, hse⟩ := h'.find_same h hs.symm (k := r.1) (e := r.2) h1 h2
      obtain ⟨g₂, hg₂, hgx₂, hm₂⟩ := data_group hr.wf h.fin hasc hne he₂ (binFor_iff.2 h1)
      have := groups_distinct hr.wf h.fin hasc hne hg₂ hg (by rw [hgx₂, hgx])
      subst this
      exact ⟨_, hm₂, hl1, (hse.has rs z i).1 hh⟩
  rw [hsame.encode o o']
  exact (bin_row_iff hr'.wf h'.fin hasc' hne' hw).2 ⟨g', hg', hgx', e', he', rfl⟩

/-- Sorted lists with the same members are equal. -/
theorem smap_eq_of_mem {m m' : SMap Bytes Bytes} (h : SMap.Sorted m) (h' : SMap.Sorted m')
    (hm : ∀ r, r ∈ m ↔ r ∈ m') : m = m' := by
  refine SMap.ext_find h h' fun k => Option.ext fun v => ?_
  rw [← SMap.mem_iff_find h, ← SMap.mem_iff_find h', hm]

theorem fillQueue_radius {M : KMerger} {H : Heap QueueElement.key} {chk : Bool} {s s' : Store}
    (hrad : s.radius = s'.radius) {mk : MatchKey} {opts : MatchOpts} {n : ℕ}
    (rows : List (Bytes × Bytes)) : ∀ q, Store.fillQueue M H chk s mk opts n q rows =
      Store.fillQueue M H chk s' mk opts n q rows := by
  induction rows with
  | nil => intro q; rfl
  | cons r t ih =>
    intro q
    unfold Store.fillQueue Store.rowElement
    simp only [hrad, ih]

theorem getMatching_congr {M : KMerger} {H : Heap QueueElement.key} {chk : Bool} {s s' : Store}
    (hrad : s.radius = s'.radius) {mk : MatchKey} (hq : s.queryRows chk mk = s'.queryRows chk mk)
    (opts : MatchOpts) (n : ℕ) :
    s.getMatching M H chk mk opts n = s'.getMatching M H chk mk opts n := by
  unfold Store.getMatching
  simp only [hq, fillQueue_radius hrad]

theorem Made.laidOut (h : Made cs o b db) (hsmall : SmallRecords db) : LaidOut db :=
  laidOut_finish (refines_run h.wf h.run).wf h.fin hsmall

/-- The rows of a range of phrases are the same. -/
theorem Made.phrase_rows (h : Made cs o b db) (h' : Made cs' o' b' db') (hsmall : SmallRecords db)
    (hsmall' : SmallRecords db') {st en : ℕ} (hs : SameUnder (fun p => st ≤ p ∧ p < en) cs cs') :
    db.filter (inRange .singlePhrase st en) = db'.filter (inRange .singlePhrase st en) := by
  have key : ∀ {cs cs' : List Call} {o o' : IterOrder} {b b' : Builder} {db db' : SMap Bytes Bytes},
      Made cs o b db → Made cs' o' b' db' → SmallRecords db →
      SameUnder (fun p => st ≤ p ∧ p < en) cs cs' →
      ∀ r ∈ db, inRange .singlePhrase st en r = true → r ∈ db' := by
    intro cs cs' o o' b b' db db' h h' hsmall hs r hr hin
    rcases laid_row (h.laidOut hsmall) hr with ⟨m, k, v, _, hk, rfl, _, _⟩ | hbk
    · obtain ⟨rfl, h1, h2⟩ := (inRange_dbKey hk _).1 hin
      have hf := (SMap.mem_iff_find (finish_sorted h.fin)).1 hr
      rw [h.phrase_row h' hs hk ⟨h1, h2⟩] at hf
      exact (SMap.mem_iff_find (finish_sorted h'.fin)).2 hf
    · unfold inRange at hin
      rw [hbk, matchesKey_bounds] at hin
      simp at hin
  refine smap_eq_of_mem ((finish_sorted h.fin).filter _) ((finish_sorted h'.fin).filter _) ?_
  intro r
  rw [List.mem_filter, List.mem_filter]
  exact ⟨fun ⟨h1, h2⟩ => ⟨key h h' hsmall hs r h1 h2, h2⟩,
    fun ⟨h1, h2⟩ => ⟨key h' h hsmall' hs.symm r h1 h2, h2⟩⟩

theorem askedBins_of_inBin {bounds : List ℕ} {st en p x : ℕ} (hst : st ∈ bounds) (hen : en ∈ bounds)
    (h1 : st ≤ x) (h2 : x < en) (h : InBin bounds p x) : AskedBins bounds st en p := by
  refine ⟨h.2.2 en hen h2, ?_⟩
  rcases h.2.1 with hx | hx
  · exact Or.inl (le_trans h1 hx)
  · exact Or.inr fun y hy => le_trans h1 (hx y hy)

theorem Made.bin_rows (h : Made cs o b db) (h' : Made cs' o' b' db') (hsmall : SmallRecords db)
    (hsmall' : SmallRecords db') (hbounds : b.bounds = b'.bounds)
    (hasc : b.bounds.Pairwise (· ≤ ·)) {st en : ℕ} (hst : st ∈ b.bounds) (hen : en ∈ b.bounds)
    (hs : SameUnder (AskedBins b.bounds st en) cs cs') :
    db.filter (inRange .prefixBin st en) = db'.filter (inRange .prefixBin st en) := by
  have key : ∀ {cs cs' : List Call} {o o' : IterOrder} {b b' : Builder} {db db' : SMap Bytes Bytes},
      Made cs o b db → Made cs' o' b' db' → SmallRecords db → b.bounds = b'.bounds →
      b.bounds.Pairwise (· ≤ ·) → st ∈ b.bounds → en ∈ b.bounds →
      SameUnder (AskedBins b.bounds st en) cs cs' →
      ∀ r ∈ db, inRange .prefixBin st en r = true → r ∈ db' := by
    intro cs cs' o o' b b' db db' h h' hsmall hbounds hasc hst hen hs r hr hin
    rcases laid_row (h.laidOut hsmall) hr with ⟨m, k, v, _, hk, rfl, _, _⟩ | hbk
    · obtain ⟨rfl, h1, h2⟩ := (inRange_dbKey hk _).1 hin
      exact h.bin_row h' hbounds hasc (List.ne_nil_of_mem hst) hk
        (hs.mono fun p hp => askedBins_of_inBin hst hen h1 h2 hp) hr
    · unfold inRange at hin
      rw [hbk, matchesKey_bounds] at hin
      simp at hin
  refine smap_eq_of_mem ((finish_sorted h.fin).filter _) ((finish_sorted h'.fin).filter _) ?_
  intro r
  rw [List.mem_filter, List.mem_filter]
  exact ⟨fun ⟨h1, h2⟩ => ⟨key h h' hsmall hbounds hasc hst hen hs r h1 h2, h2⟩,
    fun ⟨h1, h2⟩ => ⟨key h' h hsmall' hbounds.symm (hbounds ▸ hasc) (hbounds ▸ hst) (hbounds ▸ hen)
      (hbounds ▸ hs.symm) r h1 h2, h2⟩⟩

/-! ## Queries -/

theorem Made.opened_bounds (h : Made cs o b db) (zoom typeId : ℕ) (radius : F64) (bboxes : List BBox)
    (maxScore : F64) :
    (Store.openWith db zoom typeId radius bboxes maxScore).bounds = lastBounds cs := by
  obtain ⟨r, hr, hrow⟩ := C77_bounds_row o cs h.wf b h.run db h.fin
  exact C77_boundaries db (finish_sorted h.fin) r hr _ hrow zoom typeId radius bboxes maxScore

/-- **C83**, `get`: two stores give the same answer under a key if the histories leave the same
entries under it. -/
theorem C83_get (h : Made cs o b db) (h' : Made cs' o' b' db') (k : GridKey) (hk : k.Wf)
    (hs : SameUnder (fun p => p = k.phraseId) cs cs') (zoom zoom' typeId typeId' : ℕ)
    (radius radius' : F64) (bboxes bboxes' : List BBox) (maxScore maxScore' : F64) :
    (Store.openWith db zoom typeId radius bboxes maxScore).get k =
      (Store.openWith db' zoom' typeId' radius' bboxes' maxScore').get k := by
  unfold Store.get Store.openWith
  simp only [h.phrase_row h' hs hk rfl]

/-- **C83**, one phrase: the results of a query for a phrase, in full and in order, depend on the
entries stored under that phrase only (and on the radius the store is opened with): not on other
phrases, not on the boundaries of prefix bins, not on the order of the calls or of hash maps. -/
theorem C83_exact (h : Made cs o b db) (h' : Made cs' o' b' db') (hsmall : SmallRecords db)
    (hsmall' : SmallRecords db') (id lang : ℕ) (hid : id < 2 ^ 32)
    (hs : SameUnder (Asked (.exact id)) cs cs') (M : KMerger) (H : Heap QueueElement.key)
    (chk : Bool) (opts : MatchOpts) (n : ℕ) (zoom zoom' typeId typeId' : ℕ) (radius : F64)
    (bboxes bboxes' : List BBox) (maxScore maxScore' : F64) :
    (Store.openWith db zoom typeId radius bboxes maxScore).getMatching M H chk ⟨.exact id, lang⟩
        opts n =
      (Store.openWith db' zoom' typeId' radius bboxes' maxScore').getMatching M H chk
        ⟨.exact id, lang⟩ opts n := by
  refine getMatching_congr (by rfl) ?_ opts n
  by_cases hp : (chk && decide (id + 1 = 2 ^ 32)) = true
  · unfold Store.queryRows Store.fetchPlan
    simp only [if_pos hp]
    rfl
  · have hplan : ∀ s : Store, s.fetchPlan chk (.exact id) =
        some (id, (id + 1) % 2 ^ 32, .singlePhrase) := fun s => if_neg hp
    rw [queryRows_eq (h.laidOut hsmall) rfl (hplan _) hid,
      queryRows_eq (h'.laidOut hsmall') rfl (hplan _) hid]
    congr 1
    refine h.phrase_rows h' hsmall hsmall' (hs.mono fun p hp => ?_)
    have := Nat.mod_le (id + 1) (2 ^ 32)
    have h1 := hp.1
    have h2 := hp.2
    exact le_antisymm (by omega) h1

/-- **C83**, a range of phrases, read phrase by phrase. -/
theorem C83_range (h : Made cs o b db) (h' : Made cs' o' b' db') (hsmall : SmallRecords db)
    (hsmall' : SmallRecords db') (st en lang : ℕ) (hst : st < 2 ^ 32)
    (hnot : ¬ (st ∈ lastBounds cs ∧ en ∈ lastBounds cs))
    (hnot' : ¬ (st ∈ lastBounds cs' ∧ en ∈ lastBounds cs'))
    (hs : SameUnder (Asked (.range st en)) cs cs') (M : KMerger) (H : Heap QueueElement.key)
    (chk : Bool) (opts : MatchOpts) (n : ℕ) (zoom zoom' typeId typeId' : ℕ) (radius : F64)
    (bboxes bboxes' : List BBox) (maxScore maxScore' : F64) :
    (Store.openWith db zoom typeId radius bboxes maxScore).getMatching M H chk ⟨.range st en, lang⟩
        opts n =
      (Store.openWith db' zoom' typeId' radius bboxes' maxScore').getMatching M H chk
        ⟨.range st en, lang⟩ opts n := by
  refine getMatching_congr (by rfl) ?_ opts n
  have hplan : ∀ s : Store, ¬ (st ∈ s.bounds ∧ en ∈ s.bounds) →
      s.fetchPlan chk (.range st en) = some (st, en, .singlePhrase) := fun s hn => if_neg hn
  rw [queryRows_eq (h.laidOut hsmall) rfl (hplan _ (by rw [h.opened_bounds]; exact hnot)) hst,
    queryRows_eq (h'.laidOut hsmall') rfl (hplan _ (by rw [h'.opened_bounds]; exact hnot')) hst]
  congr 1
  exact h.phrase_rows h' hsmall hsmall' hs

/-- **C83**, a range of phrases from boundary to boundary, read through bins. -/
theorem C83_bins (h : Made cs o b db) (h' : Made cs' o' b' db') (hsmall : SmallRecords db)
    (hsmall' : SmallRecords db') (hbounds : lastBounds cs = lastBounds cs')
    (hasc : (lastBounds cs).Pairwise (· ≤ ·)) (st en lang : ℕ)
    (hst : st ∈ lastBounds cs) (hen : en ∈ lastBounds cs)
    (hs : SameUnder (AskedBins (lastBounds cs) st en) cs cs') (M : KMerger)
    (H : Heap QueueElement.key)
    (chk : Bool) (opts : MatchOpts) (n : ℕ) (zoom zoom' typeId typeId' : ℕ) (radius : F64)
    (bboxes bboxes' : List BBox) (maxScore maxScore' : F64) :
    (Store.openWith db zoom typeId radius bboxes maxScore).getMatching M H chk ⟨.range st en, lang⟩
        opts n =
      (Store.openWith db' zoom' typeId' radius bboxes' maxScore').getMatching M H chk
        ⟨.range st en, lang⟩ opts n := by
  have e := run_bounds h.run
  have e' := run_bounds h'.run
  have hst' : st < 2 ^ 32 := (refines_run h.wf h.run).wf.bounds _ (e ▸ hst)
  refine getMatching_congr (by rfl) ?_ opts n
  have hplan : ∀ s : Store, (st ∈ s.bounds ∧ en ∈ s.bounds) →
      s.fetchPlan chk (.range st en) = some (st, en, .prefixBin) := fun s hn => if_pos hn
  rw [queryRows_eq (h.laidOut hsmall) rfl (hplan _ (by rw [h.opened_bounds]; exact ⟨hst, hen⟩)) hst',
    queryRows_eq (h'.laidOut hsmall') rfl
      (hplan _ (by rw [h'.opened_bounds, ← hbounds]; exact ⟨hst, hen⟩)) hst']
  congr 1
  rw [← e] at hst hen hasc hs
  exact h.bin_rows h' hsmall hsmall' (by rw [e, e', hbounds]) hasc hst hen hs

/-- The two histories leave the same for a query of these phrases. A range from boundary to boundary
is read through bins, which must then be the same; any other range is read phrase by phrase. -/
inductive SameFor (cs cs' : List Call) : MatchPhrase → Prop
  | exact (id : ℕ) (bound : id < 2 ^ 32) (same : SameUnder (Asked (.exact id)) cs cs') :
      SameFor cs cs' (.exact id)
  | range (st en : ℕ) (bound : st < 2 ^ 32) (same : SameUnder (Asked (.range st en)) cs cs')
      (not : ¬ (st ∈ lastBounds cs ∧ en ∈ lastBounds cs))
      (not' : ¬ (st ∈ lastBounds cs' ∧ en ∈ lastBounds cs')) : SameFor cs cs' (.range st en)
  | bins (st en : ℕ) (bounds : lastBounds cs = lastBounds cs')
      (asc : (lastBounds cs).Pairwise (· ≤ ·)) (first : st ∈ lastBounds cs)
      (last : en ∈ lastBounds cs) (same : SameUnder (AskedBins (lastBounds cs) st en) cs cs') :
      SameFor cs cs' (.range st en)

/-- **C83**, all cases. -/
theorem C83_query (h : Made cs o b db) (h' : Made cs' o' b' db') (hsmall : SmallRecords db)
    (hsmall' : SmallRecords db') (mk : MatchKey) (hs : SameFor cs cs' mk.phrase) (M : KMerger)
    (H : Heap QueueElement.key) (chk : Bool) (opts : MatchOpts) (n : ℕ)
    (zoom zoom' typeId typeId' : ℕ) (radius : F64)
    (bboxes bboxes' : List BBox) (maxScore maxScore' : F64) :
    (Store.openWith db zoom typeId radius bboxes maxScore).getMatching M H chk mk opts n =
      (Store.openWith db' zoom' typeId' radius bboxes' maxScore').getMatching M H chk mk opts n := by
  obtain ⟨phrase, lang⟩ := mk
  cases hs with
  | exact id hid hs => exact C83_exact h h' hsmall hsmall' id lang hid hs M H chk opts n ..
  | range st en hst hs hn hn' =>
    exact C83_range h h' hsmall hsmall' st en lang hst hn hn' hs M H chk opts n ..
  | bins st en hb hasc hst hen hs =>
    exact C83_bins h h' hsmall hsmall' hb hasc st en lang hst hen hs M H chk opts n ..

/-! ## `coalesce` -/

/-- Subqueries that differ in their stores, in what they do not overlap with and in their keys at most,
which have one zoom and answer the first key alike. -/
structure AlikeQ (env : Env) (q q' : Subquery) : Prop where
  rest : q' = { q with store := q'.store, matchKeys := q'.matchKeys,
                       nonOverlapping := q'.nonOverlapping }
  zoom : q.store.zoom = q'.store.zoom
  answers : Option.Rel (fun k k' : KeyWithId => ∀ opts n,
    env.query q.store k.key opts n = env.query q'.store k'.key opts n)
    q.matchKeys.head? q'.matchKeys.head?

theorem AlikeQ.idx {env : Env} {q q' : Subquery} (h : AlikeQ env q q') : q'.idx = q.idx := by
  rw [h.rest]

theorem AlikeQ.stackKey {env : Env} {q q' : Subquery} (h : AlikeQ env q q') :
    q.stackKey = q'.stackKey := by
  unfold Subquery.stackKey
  rw [h.zoom, h.idx]

theorem AlikeQ.mkEntry {env : Env} {q q' : Subquery} (h : AlikeQ env q q') :
    Carmen.mkEntry env.chk = Carmen.mkEntry env.chk ∧ ∀ opts i g,
      Carmen.mkEntry env.chk opts q i g = Carmen.mkEntry env.chk opts q' i g := by
  refine ⟨rfl, fun opts i g => ?_⟩
  rw [h.rest]
  unfold Carmen.mkEntry toEntry
  rw [h.zoom]

theorem bind_head {α β : Type} {R : α → α → Prop} {x y : Option α} (f g : α → Option β)
    (hxy : Option.Rel R x y) (h : ∀ k k', R k k' → f k = g k') : (x >>= f) = (y >>= g) := by
  cases hxy with
  | none => rfl
  | some hr => exact h _ _ hr

theorem AlikeQ.single {env : Env} {q q' : Subquery} (h : AlikeQ env q q') (o : IterOrder)
    (opts : MatchOpts) : coalesceSingle env o q opts = coalesceSingle env o q' opts := by
  have hm : Carmen.mkEntry env.chk opts q 0 = Carmen.mkEntry env.chk opts q' 0 :=
    funext fun g => h.mkEntry.2 opts 0 g
  unfold coalesceSingle singleFeatures
  rw [hm]
  congr 1
  refine bind_head _ _ h.answers fun k k' hk => ?_
  rw [hk]

theorem compatibleZooms_alike {env : Env} {stack stack' : List Subquery}
    (h : List.Forall₂ (AlikeQ env) stack stack') {q q' : Subquery} (hq : AlikeQ env q q') :
    compatibleZooms stack q = compatibleZooms stack' q' := by
  unfold compatibleZooms
  congr 1
  induction h with
  | nil => rfl
  | cons hb _ ih =>
    rw [List.filter_cons, List.filter_cons, hq.idx, hb.idx, ← hq.zoom, ← hb.zoom]
    rw [hq.idx, ← hq.zoom] at ih
    split
    · rw [List.map_cons, List.map_cons, ih, hb.zoom]
    · exact ih

theorem multiGrid_alike {env : Env} {q q' : Subquery} (hq : AlikeQ env q q') (zooms : List ℕ)
    (first last : Bool) : multiGrid env.chk zooms q first last = multiGrid env.chk zooms q' first last := by
  funext s g
  unfold multiGrid
  simp only [hq.mkEntry.2, hq.zoom]

theorem multiStep_alike {env : Env} {stack stack' : List Subquery}
    (h : List.Forall₂ (AlikeQ env) stack stack') {q q' : Subquery} (hq : AlikeQ env q q')
    (o : IterOrder) (opts : MatchOpts) (s : MultiState) (i : ℕ) :
    multiStep env o opts stack s i q = multiStep env o opts stack' s i q' := by
  unfold multiStep MultiState.optsFor
  rw [← hq.zoom, compatibleZooms_alike h hq, multiGrid_alike hq, h.length_eq]
  congr 1
  funext adjusted
  refine bind_head _ _ hq.answers fun k k' hk => ?_
  rw [hk]

theorem multiLoop_alike {env : Env} {stack stack' : List Subquery}
    (h : List.Forall₂ (AlikeQ env) stack stack') (os : ℕ → IterOrder) (opts : MatchOpts)
    {l l' : List Subquery} (hl : List.Forall₂ (AlikeQ env) l l') : ∀ (i : ℕ) (s : MultiState),
    multiLoop env os opts stack i l s = multiLoop env os opts stack' i l' s := by
  induction hl with
  | nil => intro i s; rfl
  | cons hq _ ih =>
    intro i s
    unfold multiLoop
    simp only [multiStep_alike h hq, ih]

theorem orderedInsert_alike {env : Env} {q q' : Subquery} (hq : AlikeQ env q q')
    {l l' : List Subquery} (h : List.Forall₂ (AlikeQ env) l l') :
    List.Forall₂ (AlikeQ env) (l.orderedInsert (fun a b => a.stackKey ≤ b.stackKey) q)
      (l'.orderedInsert (fun a b => a.stackKey ≤ b.stackKey) q') := by
  induction h with
  | nil => exact .cons hq .nil
  | cons hb ht ih =>
    simp only [List.orderedInsert, hq.stackKey, hb.stackKey]
    split
    · exact .cons hq (.cons hb ht)
    · exact .cons hb ih

theorem insertionSort_alike {env : Env} {l l' : List Subquery}
    (h : List.Forall₂ (AlikeQ env) l l') :
    List.Forall₂ (AlikeQ env) (l.insertionSort (fun a b => a.stackKey ≤ b.stackKey))
      (l'.insertionSort (fun a b => a.stackKey ≤ b.stackKey)) := by
  induction h with
  | nil => exact .nil
  | cons hq _ ih => exact orderedInsert_alike hq ih

theorem coalesce_alike {env : Env} {stack stack' : List Subquery}
    (h : List.Forall₂ (AlikeQ env) stack stack') (os : ℕ → IterOrder) (opts : MatchOpts) :
    coalesce env os stack opts = coalesce env os stack' opts := by
  have hall : allContexts env os stack opts = allContexts env os stack' opts := by
    unfold allContexts coalesceMulti
    have hs := insertionSort_alike h
    rw [h.length_eq]
    simp only [multiLoop_alike hs os opts hs, hs.length_eq]
    cases h with
    | nil => rfl
    | cons hq _ => simp only [List.head?_cons, Option.bind_some, hq.single]
  unfold coalesce
  rw [hall]

/-- `q'` is `q` with another store, made by a history that leaves the same for the phrases `q` asks
for and opened with the same zoom and radius. -/
structure Swapped (q q' : Subquery) : Prop where
  swapped : ∃ cs cs' o o' b b' db db' zoom typeId typeId' radius bboxes bboxes' maxScore maxScore',
    Made cs o b db ∧ Made cs' o' b' db' ∧ SmallRecords db ∧ SmallRecords db' ∧
    q.store = Store.openWith db zoom typeId radius bboxes maxScore ∧
    q' = { q with store := Store.openWith db' zoom typeId' radius bboxes' maxScore' } ∧
    ∀ k ∈ q.matchKeys.head?, SameFor cs cs' k.key.phrase

/-- **C83**, `coalesce`: what is stored under phrases that are not asked for makes no difference to
the result of `coalesce`, whatever the orders of its hash maps. -/
theorem C83_coalesce (env : Env) (os : ℕ → IterOrder) (stack stack' : List Subquery)
    (opts : MatchOpts) (h : List.Forall₂ Swapped stack stack') :
    coalesce env os stack opts = coalesce env os stack' opts := by
  refine coalesce_alike (h.imp ?_) os opts
  rintro q q' ⟨cs, cs', o, o', b, b', db, db', zoom, typeId, typeId', radius, bboxes, bboxes',
    maxScore, maxScore', hm, hm', hsm, hsm', hst, rfl, hs⟩
  refine ⟨rfl, by rw [hst]; rfl, ?_⟩
  simp only
  cases hk : q.matchKeys.head? with
  | none => exact .none
  | some k =>
    refine .some fun opts n => ?_
    rw [hst]
    exact C83_query hm hm' hsm hsm' k.key (hs k hk) _ _ _ opts n ..

/-! ## Examples -/

/-- Phrase 7 with an entry, and others around it. -/
def frameCalls : List Call :=
  [.loadBounds [5, 9], .append ⟨7, 1⟩ [⟨1, 3, 5, 6, 7, 8⟩], .append ⟨9, 1⟩ [⟨1, 3, 5, 6, 7, 8⟩]]

/-- The same under phrase 7, otherwise not. -/
def frameCalls' : List Call :=
  [.append ⟨9, 1⟩ [⟨lit 0.8, 1, 2, 2, 2, 2⟩], .append ⟨7, 1⟩ [⟨1, 3, 5, 6, 7, 8⟩],
    .loadBounds [5, 9], .append ⟨3, 2⟩ [⟨1, 1, 4, 4, 4, 4⟩], .append ⟨7, 1⟩ [⟨1, 3, 5, 6, 7, 8⟩]]

theorem frame_content (k : GridKey) (hk : 5 ≤ k.phraseId ∧ k.phraseId < 9) :
    (Content.run frameCalls k = none ↔ Content.run frameCalls' k = none) ∧
    ∀ es es', Content.run frameCalls k = some es → Content.run frameCalls' k = some es' →
      ∀ e, e ∈ es ↔ e ∈ es' := by
  simp only [frameCalls, frameCalls', Content.run, List.foldl_cons, List.foldl_nil, Content.call,
    Content.set]
  have h9 : k ≠ ⟨9, 1⟩ := by rintro rfl; simp at hk
  have h3 : k ≠ ⟨3, 2⟩ := by rintro rfl; simp at hk
  by_cases h : k = ⟨7, 1⟩
  · subst h
    simp
  · simp [h, h9, h3]

/-- What a history leaves. -/
def leaves (cs : List Call) : SMap Bytes Bytes :=
  ((Builder.run cs).bind (finish IterOrder.id)).getD []

theorem frame_made : ∃ b, Made frameCalls .id b (leaves frameCalls) := by
  refine ⟨_, ?_, ?_, rfl, by decide +kernel⟩
  · intro c hc
    simp only [frameCalls, List.mem_cons, List.not_mem_nil, or_false] at hc
    rcases hc with rfl | rfl | rfl <;> simp [Call.Wf, GridKey.Wf, GridEntry.Wf] <;> decide +kernel
  · intro c hc
    simp only [frameCalls, List.mem_cons, List.not_mem_nil, or_false] at hc
    rcases hc with rfl | rfl | rfl <;> trivial

theorem frame_made' : ∃ b, Made frameCalls' .rev b (leaves frameCalls') := by
  refine ⟨_, ?_, ?_, rfl, by decide +kernel⟩
  · intro c hc
    simp only [frameCalls', List.mem_cons, List.not_mem_nil, or_false] at hc
    rcases hc with rfl | rfl | rfl | rfl | rfl <;>
      simp [Call.Wf, GridKey.Wf, GridEntry.Wf] <;> decide +kernel
  · intro c hc
    simp only [frameCalls', List.mem_cons, List.not_mem_nil, or_false] at hc
    rcases hc with rfl | rfl | rfl | rfl | rfl <;> trivial

theorem frame_small : SmallRecords (leaves frameCalls) ∧ SmallRecords (leaves frameCalls') := by
  constructor <;> (unfold SmallRecords; decide +kernel)

/-- A query for phrase 7 gives the same on both, and it is not empty. -/
example :
    (Store.new (leaves frameCalls)).getMatching listMerger (listHeap _) true ⟨.exact 7, 1⟩
      ⟨none, none, 6⟩ 5 =
    (Store.new (leaves frameCalls')).getMatching listMerger (listHeap _) true ⟨.exact 7, 1⟩
      ⟨none, none, 6⟩ 5 ∧
    (Store.new (leaves frameCalls)).getMatching listMerger (listHeap _) true ⟨.exact 7, 1⟩
      ⟨none, none, 6⟩ 5 ≠ some [] := by
  obtain ⟨b, hb⟩ := frame_made
  obtain ⟨b', hb'⟩ := frame_made'
  refine ⟨C83_query hb hb' frame_small.1 frame_small.2 _ (.exact 7 (by decide) ?_) _ _ _ _ _ ..,
    by decide +kernel⟩
  intro k hk
  have hk : k.phraseId = 7 := hk
  exact frame_content k (by omega)

/-- The same for the range of phrases 6 and 7. -/
example :
    (Store.new (leaves frameCalls)).getMatching listMerger (listHeap _) true ⟨.range 6 8, 1⟩
      ⟨none, none, 6⟩ 5 =
    (Store.new (leaves frameCalls')).getMatching listMerger (listHeap _) true ⟨.range 6 8, 1⟩
      ⟨none, none, 6⟩ 5 := by
  obtain ⟨b, hb⟩ := frame_made
  obtain ⟨b', hb'⟩ := frame_made'
  refine C83_query hb hb' frame_small.1 frame_small.2 _
    (.range 6 8 (by decide) ?_ (by decide) (by decide)) _ _ _ _ _ ..
  intro k hk
  have hk : 6 ≤ k.phraseId ∧ k.phraseId < 8 := hk
  exact frame_content k (by omega)

/-- The same below phrase 9, otherwise not. -/
def frameCalls2 : List Call :=
  [.append ⟨9, 1⟩ [⟨lit 0.8, 1, 2, 2, 2, 2⟩], .append ⟨7, 1⟩ [⟨1, 3, 5, 6, 7, 8⟩],
    .loadBounds [5, 9]]

theorem frame_made2 : ∃ b, Made frameCalls2 .rev b (leaves frameCalls2) := by
  refine ⟨_, ?_, ?_, rfl, by decide +kernel⟩
  · intro c hc
    simp only [frameCalls2, List.mem_cons, List.not_mem_nil, or_false] at hc
    rcases hc with rfl | rfl | rfl <;>
      simp [Call.Wf, GridKey.Wf, GridEntry.Wf] <;> decide +kernel
  · intro c hc
    simp only [frameCalls2, List.mem_cons, List.not_mem_nil, or_false] at hc
    rcases hc with rfl | rfl | rfl <;> trivial

theorem frame_bins : SameFor frameCalls frameCalls2 (.range 5 9) := by
  refine .bins 5 9 (by decide) (by decide) (by decide) (by decide) ?_
  intro k hk
  have h9 : k ≠ ⟨9, 1⟩ := by
    rintro rfl
    exact absurd hk.1 (by decide)
  simp only [frameCalls, frameCalls2, Content.run, List.foldl_cons, List.foldl_nil, Content.call,
    Content.set]
  by_cases h : k = ⟨7, 1⟩
  · subst h
    simp
  · simp [h, h9]

/-- A subquery for the phrases from 5 to 8 of a store with these rows. -/
def frameQuery (db : SMap Bytes Bytes) : Subquery :=
  ⟨Store.new db, 0, [], 1, 1, [⟨⟨.range 5 9, 1⟩, false, 0, 1⟩]⟩

/-- `coalesce`, through bins: the same on both, and not empty. -/
example (os : ℕ → IterOrder) :
    coalesce ⟨listMerger, listHeap _, true⟩ os [frameQuery (leaves frameCalls)] ⟨none, none, 6⟩ =
      coalesce ⟨listMerger, listHeap _, true⟩ os [frameQuery (leaves frameCalls2)]
        ⟨none, none, 6⟩ := by
  obtain ⟨b, hb⟩ := frame_made
  obtain ⟨b', hb'⟩ := frame_made2
  refine C83_coalesce _ os _ _ _ (.cons ⟨frameCalls, frameCalls2, .id, .rev, b, b', _, _, 6, 0, 0, 0,
    _, _, 0, 0, hb, hb', frame_small.1, by unfold SmallRecords; decide +kernel, rfl, rfl, ?_⟩ .nil)
  rintro k ⟨⟩
  exact frame_bins

example : coalesce ⟨listMerger, listHeap _, true⟩ (fun _ => .id) [frameQuery (leaves frameCalls)]
    ⟨none, none, 6⟩ ≠ some [] := by decide +kernel

/-- **C83**: through bins, phrases before the first boundary do matter. Both stores have the same
under the phrases from 5 to 8, but the one with phrase 3 returns more for that range. -/
theorem C83_before_the_first_boundary :
    SameUnder (Asked (.range 5 9)) frameCalls frameCalls' ∧
    lastBounds frameCalls = [5, 9] ∧ lastBounds frameCalls' = [5, 9] ∧
    (Store.new (leaves frameCalls)).getMatching listMerger (listHeap _) true ⟨.range 5 9, 1⟩
      ⟨none, none, 6⟩ 5 ≠
    (Store.new (leaves frameCalls')).getMatching listMerger (listHeap _) true ⟨.range 5 9, 1⟩
      ⟨none, none, 6⟩ 5 :=
  ⟨fun k hk => frame_content k hk, by decide, by decide, by decide +kernel⟩

end Carmen
