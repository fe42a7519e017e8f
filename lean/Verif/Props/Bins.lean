import Verif.Lemmas.Bins
import Verif.Props.Query

/-!
# C17: prefix bins
-/

namespace Carmen
open Format Spec Builder

/-- The results of a query over one kind of rows, as a set. -/
theorem query_mem {db : SMap Bytes Bytes} {s : Store}
    {opts : MatchOpts} (hdir : Directory db) (hsmall : SmallRecords db)
    (hs : s.db = db) (ho : OptsWf opts) (hn : NumbersOk opts s.radius) (M : KMerger)
    (H : Heap QueueElement.key) (chk : Bool) (hbf : BoxFit chk opts) (mk : MatchKey) {st en : ℕ} {m : TypeMarker}
    (hp : s.fetchPlan chk mk.phrase = some (st, en, m)) (hst : st < 2 ^ 32)
    {n : ℕ} (hlim : db.length ≤ n) :
    ∃ out, s.getMatching M H chk mk opts n = some out ∧ ∀ r, r ∈ out ↔
      ∃ (o : IterOrder) (k : GridKey) (e : BuilderEntry) (rs z i : ℕ), k.Wf ∧ EntryWf e ∧ EntryBounds e ∧
        (k.dbKey m, encodeValue o e) ∈ db ∧ st ≤ k.phraseId ∧ k.phraseId < en ∧
        Has e rs z i ∧ InBox opts (entryOf rs z i) ∧
        r = report opts s.radius (langMatches mk.langSet k.langSet) (entryOf rs z i) := by
  have hd := hdir.laidOut hsmall
  obtain ⟨out, g1, g2, _⟩ := getMatching_all (H := H) (n := n)
    (queryRows_eq hd hs hp hst) _
    (rowElement_rows hd ho hbf hn M mk) ((List.length_filter_le _ _).trans hlim)
  refine ⟨out, g1, ?_⟩
  intro r
  rw [g2.mem_iff, List.mem_flatMap]
  constructor
  · rintro ⟨x, hx, hr⟩
    obtain ⟨_, k, v, es, hk, _, _, rfl, h1, h2, hes, _, _, hperm⟩ :=
      row_answers hd ho hbf hn M mk hx
    obtain ⟨o, e, hw, hbd, rfl⟩ : ∃ o e, EntryWf e ∧ EntryBounds e ∧ v = encodeValue o e := by
      rcases directory_row hdir (List.mem_filter.1 hx).1 with ⟨o, m', k', e, _, hw, hbd, he⟩ | hbk
      · exact ⟨o, e, hw, hbd, congrArg Prod.snd he⟩
      · exact absurd hbk (dbKey_ne_bounds _ _)
    rw [hperm.mem_iff] at hr
    obtain ⟨y, hy, rfl⟩ := List.mem_map.1 hr
    obtain ⟨hy1, hy2⟩ := List.mem_filter.1 hy
    have hdb := (List.mem_filter.1 hx).1
    obtain ⟨rs, z, i, h3, rfl⟩ := (mem_decodeValue hw hbd (hsmall _ hdb) hes).1 hy1
    exact ⟨o, k, e, rs, z, i, hk, hw, hbd, hdb, h1, h2, h3, of_decide_eq_true hy2, rfl⟩
  · rintro ⟨o, k, e, rs, z, i, hk, hw, hbd, hdb, h1, h2, h3, h4, rfl⟩
    have hx : (k.dbKey m, encodeValue o e) ∈ db.filter (inRange m st en) :=
      List.mem_filter.2 ⟨hdb, (inRange_dbKey hk _).2 ⟨rfl, h1, h2⟩⟩
    refine ⟨_, hx, ?_⟩
    obtain ⟨o', k', e', es, hk', _, _, heq, _, _, hes, _, _, hperm⟩ :=
      row_answers hd ho hbf hn M mk hx
    have hkk : k' = k := ((dbKey_inj hk hk' (congrArg Prod.fst heq)).2).symm
    subst hkk
    rw [hperm.mem_iff]
    refine List.mem_map.2 ⟨_, List.mem_filter.2 ⟨?_, decide_eq_true h4⟩, rfl⟩
    exact (mem_decodeValue hw hbd (hsmall _ hdb) hes).2 ⟨rs, z, i, h3, rfl⟩

theorem bins_answer (o : IterOrder) (b : Builder) (hb : b.Wf)
    (db : SMap Bytes Bytes) (hfin : finish o b = some db) (hsmall : SmallRecords db)
    (hasc : b.bounds.Pairwise (· ≤ ·)) (st lo en lang : ℕ) (hst : st ∈ b.bounds)
    (hlo32 : lo < 2 ^ 32)
    (hA : ∀ k ∈ b.data.map Prod.fst, ∀ y, BinFor b.bounds k.phraseId y →
      (st ≤ y ∧ y < en ↔ lo ≤ k.phraseId ∧ k.phraseId < en))
    (s s' : Store) (hs : s.db = db) (hs' : s'.db = db) (hrad : s'.radius = s.radius)
    (hbins : st ∈ s.bounds ∧ en ∈ s.bounds) (hsingle : ¬ (lo ∈ s'.bounds ∧ en ∈ s'.bounds))
    (M M' : KMerger) (H H' : Heap QueueElement.key) (chk : Bool) (opts : MatchOpts)
    (ho : OptsWf opts) (hbf : BoxFit chk opts) (hn : NumbersOk opts s.radius) (n : ℕ) (hlim : db.length ≤ n) :
    ∃ out out', s.getMatching M H chk ⟨.range st en, lang⟩ opts n = some out ∧
      s'.getMatching M' H' chk ⟨.range lo en, lang⟩ opts n = some out' ∧
      ∀ r, r ∈ out ↔ r ∈ out' := by
  have hst32 := hb.bounds st hst
  have hne : b.bounds ≠ [] := List.ne_nil_of_mem hst
  obtain ⟨out, h1, h2⟩ := query_mem (s := s) (.finish hb hfin) hsmall hs ho hn M H chk hbf ⟨.range st en, lang⟩
    (st := st) (en := en) (m := .prefixBin)
    (by unfold Store.fetchPlan; simp only; rw [if_pos hbins]) hst32 hlim
  obtain ⟨out', h1', h2'⟩ := query_mem (s := s') (.finish hb hfin) hsmall hs' ho (by rw [hrad]; exact hn) M' H'
    chk hbf ⟨.range lo en, lang⟩ (st := lo) (en := en) (m := .singlePhrase)
    (by unfold Store.fetchPlan; simp only; rw [if_neg hsingle]) hlo32 hlim
  refine ⟨out, out', h1, h1', ?_⟩
  intro r
  rw [h2, h2']
  constructor
  · rintro ⟨o', k, e, rs, z, i, hk, hw, hbd, hdb, hlo, hhi, hhas, hbox, rfl⟩
    obtain ⟨g, hg, hgk, e', he', hv⟩ := (bin_row_iff hb hfin hasc hne hk).1 hdb
    -- the record read back has what the merged rows have
    have hgw := group_wf hb hg
    have hle := langMap_entries (o := o) hgw _ he'
    have hhas' : ∃ rs' z' i', Has e' rs' z' i' ∧ entryOf rs z i = entryOf rs' z' i' := by
      obtain ⟨rec, hrec, hsh⟩ := encodeValue_readsAs o' e hbd (hsmall _ hdb)
      have hes := hrec.decodeValue
      have hmem := (mem_decodeValue hw hbd (hsmall _ hdb) hes).2 ⟨rs, z, i, hhas, rfl⟩
      have hlen := hsmall _ hdb
      rw [hv] at hes
      simp only [hv] at hlen
      exact (mem_decodeValue hle.1 hle.2 hlen hes).1 hmem
    obtain ⟨rs', z', i', hh, heq⟩ := hhas'
    obtain ⟨row, hrow, hlang, hrh⟩ := (langMap_has (fun r hr => (hgw r hr).1) he').1 hh
    obtain ⟨row', hrow', rfl⟩ := List.mem_map.1 hrow
    have hdata := binGroups_data hg hrow'
    obtain ⟨y, hy, hbf⟩ := group_binFor hb hfin hasc hne hg hrow'
    rw [hgk] at hy
    cases hy
    refine ⟨o, row'.2.1, row'.2.2, rs', z', i', hb.keys _ hdata, (hb.entries _ hdata).1,
      (hb.entries _ hdata).2, ?_,
      ((hA _ (List.mem_map.2 ⟨_, hdata, rfl⟩) _ hbf).1 ⟨hlo, hhi⟩).1,
      ((hA _ (List.mem_map.2 ⟨_, hdata, rfl⟩) _ hbf).1 ⟨hlo, hhi⟩).2, hrh, ?_, ?_⟩
    · rw [SMap.mem_iff_find (finish_sorted hfin), find_finish hb hfin (hb.keys _ hdata),
        (SMap.mem_iff_find hb.sorted).1 hdata]
      rfl
    · rw [← heq]; exact hbox
    · rw [hrad, hlang, ← heq]
  · rintro ⟨o', k, e, rs, z, i, hk, hw, hbd, hdb, hlo, hhi, hhas, hbox, rfl⟩
    rw [SMap.mem_iff_find (finish_sorted hfin), find_finish hb hfin hk] at hdb
    obtain ⟨e0, he0, henc⟩ := Option.map_eq_some_iff.1 hdb
    have hdata := (SMap.mem_iff_find hb.sorted).2 he0
    have hdb' : (k.dbKey .singlePhrase, encodeValue o' e) ∈ db := by
      rw [SMap.mem_iff_find (finish_sorted hfin), find_finish hb hfin hk]; exact hdb
    have hhas' : ∃ rs' z' i', Has e0 rs' z' i' ∧ entryOf rs z i = entryOf rs' z' i' := by
      obtain ⟨rec, hrec, hsh⟩ := encodeValue_readsAs o' e hbd (hsmall _ hdb')
      have hes := hrec.decodeValue
      have hmem := (mem_decodeValue hw hbd (hsmall _ hdb') hes).2 ⟨rs, z, i, hhas, rfl⟩
      have hlen := hsmall _ hdb'
      rw [← henc] at hes
      simp only [← henc] at hlen
      exact (mem_decodeValue (hb.entries _ hdata).1 (hb.entries _ hdata).2 hlen hes).1 hmem
    obtain ⟨rs', z', i', hh, heq⟩ := hhas'
    have hend : b.binGroups.2 = true := by
      rw [← finishPuts_snd (o := o)]; exact (finish_eq_some.1 hfin).1
    have hall : (k, e0) ∈ (assignBins (BinState.init b.bounds) b.data).1.map Prod.snd := by
      rw [assignBins_all hend]; exact hdata
    obtain ⟨row, hrow, hrk⟩ := List.mem_map.1 hall
    rw [← binGroups_concat hend] at hrow
    obtain ⟨g, hg, hrow⟩ := List.mem_flatMap.1 hrow
    obtain ⟨y, hy, hbf⟩ := group_binFor hb hfin hasc hne hg hrow
    rw [hrk] at hbf
    have hgw := group_wf hb hg
    have hex : ∃ r ∈ g.2.map (·.2), r.1.langSet = k.langSet ∧ Has r.2 rs' z' i' :=
      ⟨(k, e0), List.mem_map.2 ⟨row, hrow, hrk⟩, rfl, hh⟩
    obtain ⟨eb, heb⟩ := langMap_isSome o _ (fun r hr => (hgw r hr).1) hex
    have hle := langMap_entries (o := o) hgw _ heb
    have hkw : (⟨y, k.langSet⟩ : GridKey).Wf := bin_key_wf hb hg hy heb
    refine ⟨o, ⟨y, k.langSet⟩, eb, rs', z', i', hkw, hle.1, hle.2,
      (bin_row_iff hb hfin hasc hne hkw).2 ⟨g, hg, hy, eb, heb, rfl⟩,
      ((hA _ (List.mem_map.2 ⟨_, hdata, rfl⟩) _ hbf).2 ⟨hlo, hhi⟩).1,
      ((hA _ (List.mem_map.2 ⟨_, hdata, rfl⟩) _ hbf).2 ⟨hlo, hhi⟩).2,
      (langMap_has (fun r hr => (hgw r hr).1) heb).2 hex, ?_, ?_⟩
    · rw [← heq]; exact hbox
    · rw [hrad, ← heq]

/-- The range of phrases a range of bins answers for: from the first boundary on, everything below it
too. -/
def Spec.binStart (bounds : List ℕ) (st en : ℕ) : ℕ :=
  if (∀ x ∈ bounds, st ≤ x) ∧ st < en then 0 else st

/-- **C17**, exactly: with boundaries in order, a range query between two of them is
answered from prefix bins like the range of phrases with the same end that has the same start, or
that starts at phrase 0 if the start is the first boundary. (Missing: boundaries given out of
order, `C17_repeated_boundary_loses`.) -/
theorem C17_bins_exact_partial (o : IterOrder) (b : Builder) (hb : b.Wf)
    (db : SMap Bytes Bytes) (hfin : finish o b = some db) (hsmall : SmallRecords db)
    (hasc : b.bounds.Pairwise (· ≤ ·)) (st en lang : ℕ) (hst : st ∈ b.bounds) (hen : en ∈ b.bounds)
    (s s' : Store) (hs : s.db = db) (hs' : s'.db = db) (hrad : s'.radius = s.radius)
    (hbins : st ∈ s.bounds ∧ en ∈ s.bounds) (hsingle : s'.bounds = [])
    (M M' : KMerger) (H H' : Heap QueueElement.key) (chk : Bool) (opts : MatchOpts)
    (ho : OptsWf opts) (hbf : BoxFit chk opts) (hn : NumbersOk opts s.radius) (n : ℕ)
    (hlim : db.length ≤ n) :
    ∃ out out', s.getMatching M H chk ⟨.range st en, lang⟩ opts n = some out ∧
      s'.getMatching M' H' chk ⟨.range (binStart b.bounds st en) en, lang⟩ opts n = some out' ∧
      ∀ r, r ∈ out ↔ r ∈ out' := by
  have hst32 := hb.bounds st hst
  refine bins_answer o b hb db hfin hsmall hasc st _ en lang hst ?_ ?_ s s' hs hs' hrad hbins
    (by simp [hsingle]) M M' H H' chk opts ho hbf hn n hlim
  · unfold binStart
    split_ifs
    · decide
    · exact hst32
  · intro k _ y hy
    unfold binStart
    constructor
    · rintro ⟨h1, h2⟩
      refine ⟨?_, hy.high en hen h2⟩
      split_ifs with h
      · omega
      · rcases hy.low with h3 | h3
        · omega
        · exact absurd ⟨fun x hx => h1.trans (h3 x hx), by omega⟩ h
    · rintro ⟨h1, h2⟩
      have hyen : y < en := by
        rcases hy.low with h3 | h3
        · omega
        · split_ifs at h1 with h
          · have := h3 st hst
            omega
          · have := h3 st hst
            omega
      refine ⟨?_, hyen⟩
      split_ifs at h1 with h
      · exact h.1 y hy.mem
      · by_contra hlt
        have := hy.high st hst (by omega)
        omega

/-- C17. A range query between two boundaries, answered from prefix bins, yields the same
set of results as the same query answered from the single-phrase rows, provided that the
boundaries are in order and, when the range starts at the first boundary, no
stored phrase lies below it. Missing: other boundary lists and phrases, for which the claim
is false (`C17_low_phrase_leaks`, `C17_repeated_boundary_loses`). -/
theorem C17_bins_answer_ranges_partial (o : IterOrder) (b : Builder) (hb : b.Wf)
    (db : SMap Bytes Bytes) (hfin : finish o b = some db) (hsmall : SmallRecords db)
    (hasc : b.bounds.Pairwise (· ≤ ·)) (st en lang : ℕ) (hst : st ∈ b.bounds) (hen : en ∈ b.bounds)
    (hfirst : (∀ x ∈ b.bounds, st ≤ x) → ∀ k ∈ b.data.map Prod.fst, st ≤ k.phraseId)
    (s s' : Store) (hs : s.db = db) (hs' : s'.db = db) (hrad : s'.radius = s.radius)
    (hbins : st ∈ s.bounds ∧ en ∈ s.bounds) (hsingle : ¬ (st ∈ s'.bounds ∧ en ∈ s'.bounds))
    (M M' : KMerger) (H H' : Heap QueueElement.key) (chk : Bool) (opts : MatchOpts)
    (ho : OptsWf opts) (hbf : BoxFit chk opts) (hn : NumbersOk opts s.radius) (n : ℕ) (hlim : db.length ≤ n) :
    ∃ out out', s.getMatching M H chk ⟨.range st en, lang⟩ opts n = some out ∧
      s'.getMatching M' H' chk ⟨.range st en, lang⟩ opts n = some out' ∧
      ∀ r, r ∈ out ↔ r ∈ out' := by
  refine bins_answer o b hb db hfin hsmall hasc st st en lang hst (hb.bounds st hst) ?_ s s' hs hs'
    hrad hbins hsingle M M' H H' chk opts ho hbf hn n hlim
  intro k hk y hy
  constructor
  · rintro ⟨h1, h2⟩
    refine ⟨?_, hy.high en hen h2⟩
    rcases hy.low with h | h
    · exact h1.trans h
    · exact hfirst (fun x hx => h1.trans (h x hx)) k hk
  · rintro ⟨h1, h2⟩
    constructor
    · by_contra hlt
      have := hy.high st hst (by omega)
      omega
    · rcases hy.low with h | h
      · omega
      · have := h st hst
        omega

/-- Three phrases and ascending boundaries. -/
def binExample : Builder :=
  (((Builder.new.append ⟨5, 1⟩ [⟨1, 3, 5, 6, 7, 8⟩]).append ⟨8, 1⟩ [⟨lit 0.8, 2, 5, 6, 9, 8⟩]).append
    ⟨9, 2⟩ [⟨lit 0.6, 2, 5, 6, 9, 8⟩]).loadBinBoundaries [5, 7, 20]

example : ∃ db, finish .id binExample = some db ∧ SmallRecords db ∧
    binExample.bounds.Pairwise (· < ·) ∧ (∀ k ∈ binExample.data.map Prod.fst, 5 ≤ k.phraseId) ∧
    (Store.new db).bounds = [5, 7, 20] ∧
    ((Store.new db).getMatching listMerger (listHeap _) true ⟨.range 7 20, 1⟩ .default 99).map
      (List.map (fun r => (r.entry, r.matchesLanguage))) =
      some [(⟨lit 0.8, 2, 5, 6, 9, 8⟩, true), (⟨lit 0.6 * lit 0.96, 2, 5, 6, 9, 8⟩, false)] := by
  refine ⟨(finish .id binExample).get (by decide +kernel), by simp, by decide +kernel,
    by decide +kernel, by decide +kernel, by decide +kernel, by decide +kernel⟩

/-- A phrase below the first boundary. -/
def lowWitness : Builder :=
  ((Builder.new.append ⟨2, 1⟩ [⟨1, 3, 5, 6, 7, 8⟩]).append ⟨5, 1⟩ [⟨1, 2, 5, 6, 9, 8⟩]).loadBinBoundaries
    [5, 9]

example : binStart lowWitness.bounds 5 9 = 0 ∧ binStart binExample.bounds 7 20 = 7 := by
  decide +kernel

/-- C17 is false: a phrase below the first boundary is put into the first bin, so the range
5 to 9 answered from bins also yields the entry of phrase 2. -/
theorem C17_low_phrase_leaks :
    lowWitness.Wf ∧ ∃ db, finish .id lowWitness = some db ∧ SmallRecords db ∧
      (Store.new db).bounds = [5, 9] ∧
      ((Store.new db).getMatching listMerger (listHeap _) false ⟨.range 5 9, 1⟩ .default 99).map
        (List.map (fun r : MatchEntry => r.entry.id)) = some [7, 9] ∧
      (({ Store.new db with bounds := [] } : Store).getMatching listMerger (listHeap _) false
        ⟨.range 5 9, 1⟩ .default 99).map (List.map (fun r : MatchEntry => r.entry.id)) = some [9] := by
  refine ⟨?_, (finish .id lowWitness).get (by decide +kernel), by simp, by decide +kernel,
    by decide +kernel, by decide +kernel, by decide +kernel⟩
  have h := wf_append (wf_append wf_new (k := ⟨2, 1⟩) (es := [⟨1, 3, 5, 6, 7, 8⟩]) (by decide)
    (by decide)) (k := ⟨5, 1⟩) (es := [⟨1, 2, 5, 6, 9, 8⟩]) (by decide) (by decide)
  exact ⟨h.sorted, h.keys, h.entries, by decide⟩

/-- Boundaries that come back to an earlier one. -/
def repeatWitness : Builder :=
  (((Builder.new.append ⟨5, 1⟩ [⟨1, 3, 5, 6, 7, 8⟩]).append ⟨7, 1⟩ [⟨1, 2, 5, 6, 9, 8⟩]).append
    ⟨8, 1⟩ [⟨1, 1, 5, 6, 10, 8⟩]).loadBinBoundaries [5, 7, 8, 5]

/-- C17 is false: when a boundary is repeated, its bin is overwritten, and the range 5 to 8
answered from bins loses the entry of phrase 5. -/
theorem C17_repeated_boundary_loses :
    repeatWitness.Wf ∧ ∃ db, finish .id repeatWitness = some db ∧ SmallRecords db ∧
      (Store.new db).bounds = [5, 7, 8, 5] ∧
      ((Store.new db).getMatching listMerger (listHeap _) false ⟨.range 5 8, 1⟩ .default 99).map
        (List.map (fun r => r.entry.id)) = some [9, 10] ∧
      (({ Store.new db with bounds := [] } : Store).getMatching listMerger (listHeap _) false
        ⟨.range 5 8, 1⟩ .default 99).map (List.map (fun r : MatchEntry => r.entry.id)) = some [7, 9] := by
  refine ⟨?_, (finish .id repeatWitness).get (by decide +kernel), by simp, by decide +kernel,
    by decide +kernel, by decide +kernel, by decide +kernel⟩
  have h := wf_append (wf_append (wf_append wf_new (k := ⟨5, 1⟩) (es := [⟨1, 3, 5, 6, 7, 8⟩])
    (by decide) (by decide)) (k := ⟨7, 1⟩) (es := [⟨1, 2, 5, 6, 9, 8⟩]) (by decide) (by decide))
    (k := ⟨8, 1⟩) (es := [⟨1, 1, 5, 6, 10, 8⟩]) (by decide) (by decide)
  exact ⟨h.sorted, h.keys, h.entries, by decide⟩

end Carmen
