import Verif.Props.Directory
import Verif.Props.Failed

/-!
# Entries of any score, and queries after calls that failed (C05, C65)
-/

namespace Carmen
open Format Spec Builder Store

theorem refines_get {b : Builder} {c : Content} (hr : Refines b c)
    (hc : ∀ k es, c k = some es → ∀ v ∈ es, v.Wf) {o : IterOrder} {db : SMap Bytes Bytes}
    (hfin : finish o b = some db) (hsmall : SmallRecords db) {s : Store} (hs : s.db = db)
    {k : GridKey} (hk : k.Wf) :
    (c k = none → s.get k = some none) ∧
    ∀ es, c k = some es →
      ∃ rs, s.get k = some (some rs) ∧ ∀ r, r ∈ rs ↔ ∃ e ∈ es, r = storedAny e := by
  have hf := find_finish hr.wf hfin hk
  constructor
  · intro hn
    unfold Store.get
    rw [hs, hf, (hr.absent k).2 hn]
    rfl
  · intro es hes
    cases hd : SMap.find k b.data with
    | none => rw [(hr.absent k).1 hd] at hes; cases hes
    | some e =>
      have hm := (SMap.mem_iff_find hr.wf.sorted).2 hd
      have hmem := (SMap.mem_iff_find (finish_sorted hfin) (k := k.dbKey .singlePhrase)
        (v := encodeValue o e)).2 (by rw [hf, hd]; rfl)
      have hw := hr.wf.entries _ hm
      obtain ⟨rec, hrec, hshape⟩ := encodeValue_readsAs o e hw.2 (hsmall _ hmem)
      refine ⟨shapeEntries (normEntry o e), ?_, ?_⟩
      · unfold Store.get
        rw [hs, hf, hd]
        simp only [Option.map_some]
        rw [hrec.decodeValue, hshape]
        rfl
      · have hh := hr.present k e es hd hes
        intro r
        rw [shapeEntries_eq]
        simp only [List.mem_map]
        constructor
        · rintro ⟨⟨rs, z, i⟩, ht, rfl⟩
          rw [mem_triples_normEntry hw.1] at ht
          obtain ⟨v, hv, hst⟩ := (hh rs z i).1 ht
          exact ⟨v, hv, entryOf_storedAs (hc k es hes v hv) hst⟩
        · rintro ⟨v, hv, rfl⟩
          have hst : StoredAs v (rsByte v.relev v.score) (interleave v.x v.y)
            (idComp v.id v.hash) := ⟨rfl, rfl, rfl⟩
          refine ⟨(rsByte v.relev v.score, interleave v.x v.y, idComp v.id v.hash), ?_,
            entryOf_storedAs (hc k es hes v hv) hst⟩
          rw [mem_triples_normEntry hw.1]
          exact (hh _ _ _).2 ⟨v, hv, hst⟩

theorem refines_query {b : Builder} {c : Content} (hr : Refines b c)
    (hc : ∀ k es, c k = some es → ∀ v ∈ es, v.Wf) {o : IterOrder} {db : SMap Bytes Bytes}
    (hfin : finish o b = some db) (hsmall : SmallRecords db) {s : Store} (hs : s.db = db)
    (M : KMerger) (H : Heap QueueElement.key) (chk : Bool) (phrase : MatchPhrase) (lang : ℕ)
    (hst : phrase.start < 2 ^ 32) (hmax : phrase ≠ .exact (2 ^ 32 - 1))
    (hbins : ∀ st en, phrase = .range st en → ¬ (st ∈ s.bounds ∧ en ∈ s.bounds))
    (opts : MatchOpts) (ho : OptsWf opts) (hbf : BoxFit chk opts) (hn : NumbersOk opts s.radius)
    (n : ℕ) (hlim : ∀ ks, s.keys = some ks → ks.length ≤ n) :
    ∃ out, s.getMatching M H chk ⟨phrase, lang⟩ opts n = some out ∧
      ∀ r, r ∈ out ↔ ∃ k es e, c k = some es ∧ InPhrase phrase k.phraseId ∧ e ∈ es ∧
        InBox opts e ∧ r = report opts s.radius (langMatches lang k.langSet) (storedAny e) := by
  have hd := Directory.finish hr.wf hfin
  obtain ⟨l, h1, h2, -, h4, h5⟩ := C72_listing db hd hsmall s hs
  have hlen : l.length ≤ n := by simpa using hlim _ h2
  obtain ⟨out, g1, g2⟩ := C72_query db hd hsmall s hs l h1 M H chk phrase lang hst hmax hbins opts
    ho hbf hn n hlen
  refine ⟨out, g1, fun r => ?_⟩
  have hbox : ∀ e, InBox opts (storedAny e) ↔ InBox opts e := by
    intro e
    unfold InBox storedAny
    rfl
  rw [g2.mem_iff]
  simp only [List.mem_flatMap, List.mem_filter, List.mem_map, decide_eq_true_eq]
  constructor
  · rintro ⟨p, ⟨hp, hph⟩, v, ⟨hv, hvb⟩, rfl⟩
    obtain ⟨hk, hg⟩ := h4 p hp
    obtain ⟨hnone, hsome⟩ := refines_get hr hc hfin hsmall hs hk
    cases hck : c p.1 with
    | none => rw [hnone hck] at hg; cases hg
    | some es =>
      obtain ⟨rs, hrs, hmem⟩ := hsome es hck
      rw [hg] at hrs
      cases hrs
      obtain ⟨e, he, rfl⟩ := (hmem v).1 hv
      exact ⟨p.1, es, e, hck, hph, he, (hbox e).1 hvb, rfl⟩
  · rintro ⟨k, es, e, hck, hph, he, heb, rfl⟩
    have hk : k.Wf := by
      have hne : SMap.find k b.data ≠ none := fun h => by
        rw [(hr.absent k).1 h] at hck; cases hck
      obtain ⟨v, hv⟩ := Option.ne_none_iff_exists'.1 hne
      exact hr.wf.keys _ ((SMap.mem_iff_find hr.wf.sorted).2 hv)
    obtain ⟨rs, hrs, hmem⟩ := (refines_get hr hc hfin hsmall hs hk).2 es hck
    have hkl : k ∈ l.map Prod.fst := by
      by_contra hno
      rw [h5 k hk hno] at hrs
      cases hrs
    obtain ⟨p, hp, rfl⟩ := List.mem_map.1 hkl
    rw [(h4 p hp).2] at hrs
    cases hrs
    exact ⟨p, ⟨hp, hph⟩, storedAny e, ⟨(hmem _).2 ⟨e, he, rfl⟩, (hbox e).2 heb⟩, rfl⟩

/-- C65, entries of any score: any calls, whether they return errors or not, followed by a `finish`
that returns, leave one content behind. The entries read for a key are those the content has for it, as
they are stored. -/
theorem C65_any_score (o : IterOrder) (ds : List Call) (hd : ∀ d ∈ ds, d.Wf) (db : SMap Bytes Bytes)
    (hfin : finish o (runAll Builder.new ds) = some db) (hsmall : SmallRecords db) :
    ∃ c, Effects (fun _ => none) ds c ∧ ∀ s : Store, s.db = db → ∀ k : GridKey, k.Wf →
      (c k = none → s.get k = some none) ∧
      ∀ es, c k = some es →
        ∃ rs, s.get k = some (some rs) ∧ ∀ r, r ∈ rs ↔ ∃ e ∈ es, r = storedAny e := by
  obtain ⟨c, h1, hr⟩ := refines_new.runAll hd
  exact ⟨c, h1, fun s hs k hk => refines_get hr (effects_entries h1 GridEntry.Wf (by simp)
    fun d hdd v hv => call_entries_wf (hd d hdd) v hv) hfin hsmall hs hk⟩

/-- C65, queries: after any calls, whether they return errors or not, a query that is not answered from
prefix bins, with a limit of at least the number of keys, returns what it asks for of the content the
calls left behind, as it is stored. -/
theorem C65_query (o : IterOrder) (ds : List Call) (hd : ∀ d ∈ ds, d.Wf) (db : SMap Bytes Bytes)
    (hfin : finish o (runAll Builder.new ds) = some db) (hsmall : SmallRecords db) :
    ∃ c, Effects (fun _ => none) ds c ∧ ∀ s : Store, s.db = db →
      ∀ (M : KMerger) (H : Heap QueueElement.key) (chk : Bool) (phrase : MatchPhrase) (lang : ℕ),
      phrase.start < 2 ^ 32 → phrase ≠ .exact (2 ^ 32 - 1) →
      (∀ st en, phrase = .range st en → ¬ (st ∈ s.bounds ∧ en ∈ s.bounds)) →
      ∀ opts : MatchOpts, OptsWf opts → BoxFit chk opts → NumbersOk opts s.radius →
      ∀ n, (∀ ks, s.keys = some ks → ks.length ≤ n) →
      ∃ out, s.getMatching M H chk ⟨phrase, lang⟩ opts n = some out ∧
        ∀ r, r ∈ out ↔ ∃ k es e, c k = some es ∧ InPhrase phrase k.phraseId ∧ e ∈ es ∧
          InBox opts e ∧ r = report opts s.radius (langMatches lang k.langSet) (storedAny e) := by
  obtain ⟨c, h1, hr⟩ := refines_new.runAll hd
  exact ⟨c, h1, fun s hs M H chk phrase lang hst hmax hbins opts ho hbf hn n hlim =>
    refines_query hr (effects_entries h1 GridEntry.Wf (by simp)
      fun d hdd v hv => call_entries_wf (hd d hdd) v hv) hfin hsmall hs M H chk phrase lang hst hmax
      hbins opts ho hbf hn n hlim⟩

/-- C05, queries: after calls that succeeded, whatever the scores, a query returns what it asks for of
what was written, as it is stored. Missing: see `C05_relevance_not_kept`. -/
theorem C05_query_partial (o : IterOrder) (cs : List Call) (hc : ∀ c ∈ cs, c.Wf)
    (b : Builder) (hrun : Builder.run cs = some b)
    (db : SMap Bytes Bytes) (hfin : finish o b = some db) (hsmall : SmallRecords db)
    (s : Store) (hs : s.db = db)
    (M : KMerger) (H : Heap QueueElement.key) (chk : Bool) (phrase : MatchPhrase) (lang : ℕ)
    (hst : phrase.start < 2 ^ 32) (hmax : phrase ≠ .exact (2 ^ 32 - 1))
    (hbins : ∀ st en, phrase = .range st en → ¬ (st ∈ s.bounds ∧ en ∈ s.bounds))
    (opts : MatchOpts) (ho : OptsWf opts) (hbf : BoxFit chk opts) (hn : NumbersOk opts s.radius)
    (n : ℕ) (hlim : ∀ ks, s.keys = some ks → ks.length ≤ n) :
    ∃ out, s.getMatching M H chk ⟨phrase, lang⟩ opts n = some out ∧
      ∀ r, r ∈ out ↔ ∃ k es e, Content.run cs k = some es ∧ InPhrase phrase k.phraseId ∧ e ∈ es ∧
        InBox opts e ∧ r = report opts s.radius (langMatches lang k.langSet) (storedAny e) :=
  refines_query (refines_run hc hrun) (fun k es hes v hv => by
    obtain ⟨c, hcc, hvc⟩ := content_entries hes v hv
    exact call_entries_wf (hc c hcc) v hvc) hfin hsmall hs M H chk phrase lang hst hmax hbins opts ho
    hbf hn n hlim

/-- Calls that fail, and an entry of relevance 0.4 with score 17, which is stored with relevance 0.6 and
score 1. -/
def oddCalls : List Call :=
  failingCalls ++ [.append ⟨5, 1⟩ [⟨lit 0.4, 17, 5, 6, 3, 0⟩]]

example : (∀ d ∈ oddCalls, d.Wf) ∧
    ((finish .id (runAll Builder.new oddCalls)).bind fun db =>
      (Store.new db).getMatching listMerger (listHeap _) true ⟨.range 0 9, 1⟩
        ⟨some ⟨2, 2, 5, 6⟩, none, 6⟩ 9).map (·.map (·.entry)) =
      some [⟨1, 3, 5, 6, 12, 8⟩, ⟨1, 3, 5, 6, 7, 8⟩, ⟨lit 0.96, 3, 5, 6, 8, 8⟩,
        ⟨lit 0.6, 1, 5, 6, 3, 0⟩] := by
  constructor
  · intro d hd
    rcases List.mem_append.1 hd with hd | hd
    · exact failingCalls_wf d hd
    · rw [List.mem_singleton.1 hd]
      exact ⟨by decide +kernel, by decide +kernel⟩
  · decide +kernel

end Carmen
