import Verif.Spec.Provenance
import Verif.Lemmas.Ground
import Verif.Lemmas.Bins
import Verif.Lemmas.TreeComplete
import Verif.Props.AnyScore

/-!
# Query results come from stored entries, whatever the options
-/

namespace Carmen
open Format Spec Builder Store

theorem filteredGet_mem {cs : List Coord} {b : BBox} {i : ℕ} {c : Coord}
    (h : filteredGet cs b i = some c) : c ∈ cs :=
  List.mem_of_getElem? (Option.filter_eq_some_iff.1 h).1

theorem selectCoords_sub {opts : MatchOpts} {cs : List Coord} :
    ∀ c ∈ selectCoords opts cs, c ∈ cs := by
  intro c hc
  obtain ⟨box, prox, zoom⟩ := opts
  unfold selectCoords at hc
  cases box with
  | none =>
    cases prox with
    | none => exact hc
    | some p =>
      dsimp only at hc
      unfold proximity at hc
      dsimp only at hc
      split_ifs at hc
      · cases hc
      · cases hm : coordSearch cs (interleave p.1 p.2) 0 with
        | none => rw [hm] at hc; cases hc
        | some mid =>
          rw [hm] at hc
          rcases List.mem_append.1 ((mergeBy_perm _ _ _).mem_iff.1 hc) with h | h
          all_goals
            obtain ⟨i, -, hi⟩ := List.mem_filterMap.1 h
            exact List.mem_of_getElem? hi
  | some b =>
    cases prox with
    | none =>
      dsimp only at hc
      unfold bboxFilter at hc
      split_ifs at hc
      · cases hc
      · cases hm : bboxRange cs b with
        | none => rw [hm] at hc; cases hc
        | some r =>
          rw [hm] at hc
          obtain ⟨i, -, hi⟩ := List.mem_filterMap.1 hc
          exact filteredGet_mem hi
    | some p =>
      dsimp only at hc
      unfold bboxProximity at hc
      cases hr : bboxRange cs b with
      | none => rw [hr] at hc; cases hc
      | some r =>
        rw [hr] at hc
        dsimp only at hc
        split_ifs at hc
        · cases hc
        · cases hm : coordSearch cs (interleave p.1 p.2) 0 with
          | none => rw [hm] at hc; cases hc
          | some mid =>
            rw [hm] at hc
            rcases List.mem_append.1 ((mergeBy_perm _ _ _).mem_iff.1 hc) with h | h
            all_goals
              obtain ⟨i, -, hi⟩ := List.mem_filterMap.1 h
              exact filteredGet_mem hi

theorem scoreCoord_keeps (opts : MatchOpts) (radius : F64) (score : ℕ) (c : Coord) :
    (scoreCoord opts radius score c).coord = c ∧
      (scoreCoord opts radius score c).score = score := by
  unfold scoreCoord
  cases opts.proximity <;> exact ⟨rfl, rfl⟩

/-- What a record gives a query, it gives everyone. -/
theorem decodeMatching_tells {M : KMerger} {chk : Bool} {opts : MatchOpts} {ml : Bool}
    {radius : F64} {v : Bytes} {out : List MatchEntry}
    (h : decodeMatching M chk opts ml radius v = some out) {es : List GridEntry}
    (hes : decodeValue v = some es) : ∀ r ∈ out, ∃ e ∈ es, TellsOf ml e r := by
  replace h := decodeMatching_relax h
  unfold decodeMatching at h
  simp only [Option.bind_eq_bind, Option.bind_eq_some_iff] at h
  obtain ⟨root, hroot, rss, hrss, groups, hg, h⟩ := h
  cases h
  unfold decodeValue at hes
  simp only [Option.bind_eq_bind, Option.bind_eq_some_iff] at hes
  obtain ⟨root', hroot', rss', hrss', gs, hgs, hes⟩ := hes
  rw [hroot] at hroot'
  cases hroot'
  rw [hrss] at hrss'
  cases hrss'
  cases hes
  intro r hr
  obtain ⟨l, hl, hr⟩ := List.mem_flatten.1 hr
  obtain ⟨g, hgm, hgl⟩ := mapM_mem hg l hl
  simp only [Option.bind_eq_some_iff] at hgl
  obtain ⟨streams, hst, merged, hm, es, hes, hgl⟩ := hgl
  cases hgl
  obtain ⟨l, hl, hr⟩ := List.mem_flatten.1 hr
  obtain ⟨sc, hsc, hids⟩ := mapM_mem hes l hl
  obtain ⟨ids, hids', hids⟩ := Option.bind_eq_some_iff.1 hids
  cases hids
  obtain ⟨i, hi, rfl⟩ := List.mem_map.1 hr
  obtain ⟨s, hs, hscs⟩ := mergeScores_mem hm sc hsc
  obtain ⟨rs, hrs', hrs⟩ := mapM_mem hst s hs
  obtain ⟨cs, hcs, hrs⟩ := Option.bind_eq_some_iff.1 hrs
  rw [if_neg (by simp)] at hrs
  cases hrs
  obtain ⟨c, hc, rfl⟩ := List.mem_map.1 hscs
  obtain ⟨f1, f2⟩ := scoreCoord_keeps opts radius (rs.relevScore &&& 15) c
  rw [f1] at hids'
  have hlab : relevOfInt (rs.relevScore >>> 4) = g.1 :=
    isGrouping_key_eq (groupBy_isGrouping (fun rs : RelevScore => relevOfInt (rs.relevScore >>> 4))
      rss) g hgm rs hrs'
  have hrsm : rs ∈ rss := by
    rw [← (groupBy_isGrouping (fun rs : RelevScore => relevOfInt (rs.relevScore >>> 4)) rss).concat]
    exact List.mem_flatMap.2 ⟨g, hgm, hrs'⟩
  obtain ⟨lg, hlg, hlg'⟩ := mapM_mem_left hgs rs hrsm
  simp only [Option.bind_eq_some_iff] at hlg'
  obtain ⟨coords, hco, ccs, hccs, hlg'⟩ := hlg'
  cases hlg'
  rw [hcs] at hco
  cases hco
  obtain ⟨lc, hlc, hlc'⟩ := mapM_mem_left hccs c (selectCoords_sub c hc)
  simp only [Option.bind_eq_some_iff] at hlc'
  obtain ⟨ids', hid', hlc'⟩ := hlc'
  rw [hids'] at hid'
  cases hid'
  cases hlc'
  refine ⟨_, List.mem_flatten.2 ⟨_, hlg, List.mem_flatten.2 ⟨_, hlc, List.mem_map_of_mem hi⟩⟩, ?_⟩
  refine ⟨?_, ?_, rfl, rfl, f2, rfl, ?_⟩
  · show (deinterleave (scoreCoord _ _ _ c).coord.coord).1 = _
    rw [f1]
  · show (deinterleave (scoreCoord _ _ _ c).coord.coord).2 = _
    rw [f1]
  · show g.1 * langFactor ml _ = _ ∨ (_ ∧ g.1 * langFactor ml _ = _)
    rw [← hlab]
    unfold langFactor
    split_ifs with hw
    · left
      exact relevOfInt_mul_one _
    · right
      simp only [Bool.or_eq_true, not_or] at hw
      exact ⟨by simpa using hw.1, rfl⟩

theorem fillQueue_rows {M : KMerger} {H : Heap QueueElement.key} {chk : Bool} {s : Store}
    {mk : MatchKey} {opts : MatchOpts} {n : ℕ} {P : MatchEntry → Prop}
    {rows : List (Bytes × Bytes)} {q q' : List QueueElement}
    (h : Store.fillQueue M H chk s mk opts n q rows = some q')
    (hr : ∀ r ∈ rows, ∀ e, s.rowElement M chk mk opts r = some (some e) →
      ∀ x ∈ e.next :: e.rest, P x)
    (hq : ∀ e ∈ q, ∀ x ∈ e.next :: e.rest, P x) :
    ∀ e ∈ q', ∀ x ∈ e.next :: e.rest, P x := by
  induction rows generalizing q with
  | nil =>
    unfold Store.fillQueue at h
    cases h
    exact hq
  | cons r t ih =>
    unfold Store.fillQueue at h
    simp only [Option.bind_eq_bind, Option.bind_eq_some_iff] at h
    obtain ⟨e, he, h⟩ := h
    have ht := fun r' hr' => hr r' (List.mem_cons_of_mem _ hr')
    cases e with
    | none => exact ih h ht hq
    | some e =>
      simp only [Option.bind_eq_some_iff] at h
      obtain ⟨q1, h1, h⟩ := h
      refine ih h ht ?_
      intro x hx
      rcases pushRow_mem h1 x hx with rfl | hx
      · exact hr r List.mem_cons_self _ he
      · exact hq x hx

/-- Every result of a query was decoded from one of its rows. -/
theorem getMatching_rows_from {M : KMerger} {H : Heap QueueElement.key} {chk : Bool} {s : Store}
    {mk : MatchKey} {opts : MatchOpts} {n : ℕ} {out : List MatchEntry}
    (h : s.getMatching M H chk mk opts n = some out) :
    ∃ rows, s.queryRows chk mk = some rows ∧ ∀ x ∈ out, ∃ r ∈ rows, ∃ ml es,
      mk.matchesLanguage r.1 = some ml ∧ decodeMatching M chk opts ml s.radius r.2 = some es ∧
      x ∈ es := by
  unfold Store.getMatching at h
  simp only [Option.bind_eq_bind, Option.bind_eq_some_iff] at h
  obtain ⟨rows, hrows, q, hq, h⟩ := h
  cases h
  refine ⟨rows, hrows, drain_mem _ (fillQueue_rows hq ?_ fun e he => (List.not_mem_nil he).elim)⟩
  intro r hr e he x hx
  unfold Store.rowElement at he
  simp only [Option.bind_eq_bind, Option.bind_eq_some_iff] at he
  obtain ⟨ml, hml, es, hes, he⟩ := he
  refine ⟨r, hr, ml, es, hml, hes, ?_⟩
  cases es with
  | nil => simp at he
  | cons a t =>
    simp only [Option.some.injEq] at he
    subst he
    exact hx

theorem refines_data {b : Builder} {c : Content} (hr : Refines b c) {k : GridKey} {e : BuilderEntry}
    (h : (k, e) ∈ b.data) : ∃ es, c k = some es ∧ Holds e es := by
  have hf := (SMap.mem_iff_find hr.wf.sorted).1 h
  cases hc : c k with
  | none => rw [(hr.absent k).2 hc] at hf; cases hf
  | some es => exact ⟨es, rfl, hr.present k e es hf hc⟩

/-- What a stored row reads as was written, under its own key or, for a row of a prefix bin, under one
with the same languages. -/
theorem row_written {b : Builder} {c : Content} (hr : Refines b c)
    (hc : ∀ k es, c k = some es → ∀ v ∈ es, v.Wf) {o : IterOrder} {db : SMap Bytes Bytes}
    (hfin : finish o b = some db) (hsmall : SmallRecords db) {m : TypeMarker} {k : GridKey}
    (hk : k.Wf) {v : Bytes} (hv : (k.dbKey m, v) ∈ db) {es : List GridEntry}
    (hes : decodeValue v = some es) : ∀ y ∈ es, ∃ k' es' e, c k' = some es' ∧ e ∈ es' ∧
      k'.langSet = k.langSet ∧ (m = .singlePhrase → k' = k) ∧ y = storedAny e := by
  intro y hy
  have hb := hr.wf
  have hlen := hsmall _ hv
  have key : ∀ (k' : GridKey) (e' : BuilderEntry), (k', e') ∈ b.data → ∀ rs z i, Has e' rs z i →
      ∃ es' e, c k' = some es' ∧ e ∈ es' ∧ entryOf rs z i = storedAny e := by
    intro k' e' he' rs z i hh
    obtain ⟨es', h1, h2⟩ := refines_data hr he'
    obtain ⟨e, he, hst⟩ := (h2 rs z i).1 hh
    exact ⟨es', e, h1, he, entryOf_storedAs (hc k' es' h1 e he) hst⟩
  have hput := (SMap.mem_iff_find (finish_sorted hfin)).1 hv
  rw [← (finish_eq_some.1 hfin).2] at hput
  rcases mem_of_find_applyPuts hput with hn | hput
  · simp [SMap.find] at hn
  rcases mem_finishPuts_cases hput with ⟨x, hx, he⟩ | ⟨g, hg, bin, hbin, le, hle, he⟩ | ⟨he, _⟩
  · obtain ⟨e1, e2⟩ := dbKey_inj hk (hb.keys x hx) (congrArg Prod.fst he)
    have e3 : v = encodeValue o x.2 := congrArg Prod.snd he
    rw [e3] at hes
    have hlen' : (encodeValue o x.2).length < 2 ^ 32 := by rw [← e3]; exact hlen
    obtain ⟨rs, z, i, hh, rfl⟩ := (mem_decodeValue (hb.entries _ hx).1 (hb.entries _ hx).2 hlen'
      hes).1 hy
    obtain ⟨es', e, h1, h2, h3⟩ := key x.1 x.2 hx rs z i hh
    exact ⟨x.1, es', e, h1, h2, by rw [e2], fun _ => e2.symm, h3⟩
  · obtain ⟨e1, e2⟩ := dbKey_inj hk (bin_key_wf hb hg hbin hle) (congrArg Prod.fst he)
    have e3 : v = encodeValue o le.2 := congrArg Prod.snd he
    rw [e3] at hes
    have hlen' : (encodeValue o le.2).length < 2 ^ 32 := by rw [← e3]; exact hlen
    have hgw := group_wf hb hg
    have hlw := langMap_entries (o := o) hgw _ hle
    obtain ⟨rs, z, i, hh, rfl⟩ := (mem_decodeValue hlw.1 hlw.2 hlen' hes).1 hy
    obtain ⟨row, hrow, hlang, hrh⟩ := (langMap_has (fun r hr => (hgw r hr).1) hle).1 hh
    obtain ⟨row', hrow', rfl⟩ := List.mem_map.1 hrow
    obtain ⟨es', e, h1, h2, h3⟩ := key _ _ (binGroups_data hg hrow') rs z i hrh
    refine ⟨row'.2.1, es', e, h1, h2, by rw [hlang, e2], fun h => ?_, h3⟩
    rw [e1] at h
    cases h
  · exact absurd (congrArg Prod.fst he).symm (dbKey_ne_bounds _ _).symm

end Carmen
