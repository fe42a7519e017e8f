import Verif.Props.Directory
import Verif.Lemmas.Bins

/-!
# C77: the bytes of a store

What a builder leaves in a directory, byte for byte, in terms of `Spec/Layout.lean` (digits and
bits; nothing of the writer or the reader), and that whatever is laid out so can be read.
-/

namespace Carmen
open Format Spec Builder

theorem content_find {cs : List Call} {b : Builder} (hr : Refines b (Content.run cs))
    {k : GridKey} {es : List GridEntry} (h : Content.run cs k = some es) :
    ∃ e, (k, e) ∈ b.data ∧ Holds e es := by
  cases hf : SMap.find k b.data with
  | none => rw [(hr.absent k).1 hf] at h; cases h
  | some e => exact ⟨e, (SMap.mem_iff_find hr.wf.sorted).2 hf, hr.present k e es hf h⟩

theorem data_content {cs : List Call} {b : Builder} (hr : Refines b (Content.run cs))
    {k : GridKey} {e : BuilderEntry} (h : (k, e) ∈ b.data) :
    ∃ es, Content.run cs k = some es ∧ Holds e es := by
  have hf := (SMap.mem_iff_find hr.wf.sorted).1 h
  cases hc : Content.run cs k with
  | none => rw [(hr.absent k).2 hc] at hf; cases hf
  | some es => exact ⟨es, rfl, hr.present k e es hf hc⟩

theorem content_entries_wf {cs : List Call} (hc : ∀ c ∈ cs, c.Wf) {k : GridKey}
    {es : List GridEntry} (h : Content.run cs k = some es) : ∀ e ∈ es, e.Wf := by
  intro e he
  obtain ⟨c, hcm, hce⟩ := content_entries h e he
  exact call_entries_wf (hc c hcm) e hce

theorem run_bounds {cs : List Call} {b : Builder} (hrun : Builder.run cs = some b) :
    b.bounds = lastBounds cs := bounds_runFrom hrun

/-- **C77**: for every phrase that was written there is a row under its key with the record of its
entries. -/
theorem C77_phrase_row (o : IterOrder) (cs : List Call) (hc : ∀ c ∈ cs, c.Wf)
    (b : Builder) (hrun : Builder.run cs = some b)
    (db : SMap Bytes Bytes) (hfin : finish o b = some db) (hsmall : SmallRecords db)
    (k : GridKey) (es : List GridEntry) (hes : Content.run cs k = some es) :
    ∃ r ∈ db, RowKey 0 k r.1 ∧ RecordFor r.2 es := by
  have hr := refines_run hc hrun
  obtain ⟨e, he, hh⟩ := content_find hr hes
  have hm : (k.dbKey .singlePhrase, encodeValue o e) ∈ db := by
    rw [SMap.mem_iff_find (finish_sorted hfin), find_finish hr.wf hfin (hr.wf.keys _ he),
      (SMap.mem_iff_find hr.wf.sorted).1 he]
    rfl
  exact ⟨_, hm, (rowKey_iff (m := .singlePhrase) (hr.wf.keys _ he)).2 rfl,
    recordFor_encodeValue (hr.wf.entries _ he).1 (hr.wf.entries _ he).2 (hsmall _ hm)
      (content_entries_wf hc hes) hh⟩

/-- **C77**: there is a row with the boundaries that were loaded last. -/
theorem C77_bounds_row (o : IterOrder) (cs : List Call) (hc : ∀ c ∈ cs, c.Wf)
    (b : Builder) (hrun : Builder.run cs = some b)
    (db : SMap Bytes Bytes) (hfin : finish o b = some db) :
    ∃ r ∈ db, BoundsRow (lastBounds cs) r := by
  have hr := refines_run hc hrun
  refine ⟨(boundsKey, boundsValue b.bounds),
    (SMap.mem_iff_find (finish_sorted hfin)).2 (find_bounds hfin), ?_⟩
  rw [← run_bounds hrun]
  exact boundsRow_iff.2 ⟨hr.wf.bounds, rfl⟩

theorem binFor_iff {bounds : List ℕ} {p x : ℕ} : BinFor bounds p x ↔ InBin bounds p x :=
  ⟨fun h => ⟨h.mem, h.low, h.high⟩, fun h => ⟨h.1, h.2.1, h.2.2⟩⟩

theorem langMap_has_lang (o : IterOrder) (rows : List (GridKey × BuilderEntry)) {l : ℕ}
    (h : ∃ r ∈ rows, r.1.langSet = l) : ∃ e, (l, e) ∈ langMap o rows := by
  have key : ∀ (rows : List (GridKey × BuilderEntry)) (m : HMap ℕ BuilderEntry),
      ((HMap.find l m).isSome ∨ ∃ r ∈ rows, r.1.langSet = l) →
      (HMap.find l (rows.foldl (fun m kv => HMap.upsert kv.1.langSet []
        (fun d => copyEntries o kv.2 d) m) m)).isSome := by
    intro rows
    induction rows with
    | nil => intro m h; simpa using h
    | cons r t ih =>
      intro m h
      refine ih _ ?_
      rw [HMap.find_upsert]
      rcases h with h | ⟨q, hq, hl⟩
      · left
        split
        · rfl
        · exact h
      · rcases List.mem_cons.1 hq with rfl | hq
        · left; simp [hl]
        · exact Or.inr ⟨q, hq, hl⟩
  obtain ⟨e, he⟩ := Option.isSome_iff_exists.1 (key rows [] (Or.inr h))
  exact ⟨e, HMap.mem_of_find he⟩

/-- The group of a row of the builder. -/
theorem data_group {o : IterOrder} {b : Builder} (hb : b.Wf) {db : SMap Bytes Bytes}
    (hfin : finish o b = some db) (hasc : b.bounds.Pairwise (· ≤ ·)) (hne : b.bounds ≠ [])
    {k : GridKey} {e : BuilderEntry} (h : (k, e) ∈ b.data) {x : ℕ}
    (hx : BinFor b.bounds k.phraseId x) :
    ∃ g ∈ b.binGroups.1, g.1 = some x ∧ (k, e) ∈ g.2.map (·.2) := by
  have hend : b.binGroups.2 = true := by
    rw [← finishPuts_snd (o := o)]; exact (finish_eq_some.1 hfin).1
  have hall : (k, e) ∈ (assignBins (BinState.init b.bounds) b.data).1.map Prod.snd := by
    rw [assignBins_all hend]; exact h
  obtain ⟨row, hrow, hrk⟩ := List.mem_map.1 hall
  rw [← binGroups_concat hend] at hrow
  obtain ⟨g, hg, hrow⟩ := List.mem_flatMap.1 hrow
  obtain ⟨y, hy, hbf⟩ := group_binFor hb hfin hasc hne hg hrow
  rw [hrk] at hbf
  have : y = x := le_antisymm (hbf.mono hx (le_refl _)) (hx.mono hbf (le_refl _))
  subst this
  exact ⟨g, hg, hy, List.mem_map.2 ⟨row, hrow, hrk⟩⟩

/-- **C77**: with ascending boundaries, for every bin and set of languages that some phrase
falls into there is a row under the key of the bin, with the record of all entries of these
phrases. -/
theorem C77_bin_row (o : IterOrder) (cs : List Call) (hc : ∀ c ∈ cs, c.Wf)
    (b : Builder) (hrun : Builder.run cs = some b)
    (db : SMap Bytes Bytes) (hfin : finish o b = some db) (hsmall : SmallRecords db)
    (hasc : (lastBounds cs).Pairwise (· ≤ ·)) (x l : ℕ)
    (hx : ∃ k es, Content.run cs k = some es ∧ k.langSet = l ∧
      InBin (lastBounds cs) k.phraseId x) :
    ∃ r ∈ db, RowKey 1 ⟨x, l⟩ r.1 ∧ ∃ es, RecordFor r.2 es ∧ ∀ e, e ∈ es ↔
      ∃ k es', Content.run cs k = some es' ∧ k.langSet = l ∧
        InBin (lastBounds cs) k.phraseId x ∧ e ∈ es' := by
  have hr := refines_run hc hrun
  have hb := hr.wf
  rw [← run_bounds hrun] at *
  obtain ⟨k, es, hes, rfl, hin⟩ := hx
  have hne : b.bounds ≠ [] := List.ne_nil_of_mem hin.1
  obtain ⟨e, he, hh⟩ := content_find hr hes
  obtain ⟨g, hg, hgx, hmem⟩ := data_group hb hfin hasc hne he (binFor_iff.2 hin)
  obtain ⟨eb, heb⟩ := langMap_has_lang o (g.2.map (·.2)) ⟨_, hmem, rfl⟩
  have hgw := group_wf hb hg
  have hle := langMap_entries (o := o) hgw _ heb
  have hkw : (⟨x, k.langSet⟩ : GridKey).Wf := bin_key_wf hb hg hgx heb
  have hm := (bin_row_iff hb hfin hasc hne hkw).2 ⟨g, hg, hgx, eb, heb, rfl⟩
  -- the entries, as a list
  have hlist : ∃ es : List GridEntry, ∀ e, e ∈ es ↔ ∃ k' es', Content.run cs k' = some es' ∧
      k'.langSet = k.langSet ∧ InBin b.bounds k'.phraseId x ∧ e ∈ es' := by
    classical
    refine ⟨b.data.flatMap fun row => if row.1.langSet = k.langSet ∧
      InBin b.bounds row.1.phraseId x then (Content.run cs row.1).getD [] else [], fun v => ?_⟩
    simp only [List.mem_flatMap]
    constructor
    · rintro ⟨⟨k', e'⟩, hrow, hv⟩
      split at hv
      · rename_i hif
        obtain ⟨es', h1, h2⟩ := data_content hr hrow
        refine ⟨k', es', h1, hif.1, hif.2, ?_⟩
        rw [h1] at hv
        exact hv
      · cases hv
    · rintro ⟨k', es', h1, h2, h3, h4⟩
      obtain ⟨e', h5, _⟩ := content_find hr h1
      refine ⟨(k', e'), h5, ?_⟩
      rw [if_pos ⟨h2, h3⟩, h1]
      exact h4
  obtain ⟨L, hL⟩ := hlist
  refine ⟨_, hm, (rowKey_iff (m := .prefixBin) hkw).2 rfl, L, ?_, hL⟩
  refine recordFor_encodeValue hle.1 hle.2 (hsmall _ hm) ?_ ?_
  · intro v hv
    obtain ⟨k', es', h1, _, _, h4⟩ := (hL v).1 hv
    exact content_entries_wf hc h1 v h4
  · intro rs z i
    rw [langMap_has (fun r hr => (hgw r hr).1) heb]
    constructor
    · rintro ⟨row, hrow, hl, hhas⟩
      obtain ⟨row', hrow', rfl⟩ := List.mem_map.1 hrow
      obtain ⟨y, hy, hbf⟩ := group_binFor hb hfin hasc hne hg hrow'
      rw [hgx] at hy
      cases hy
      obtain ⟨es', h1, h2⟩ := data_content hr (k := row'.2.1) (e := row'.2.2)
        (binGroups_data hg hrow')
      obtain ⟨v, hv, hs⟩ := (h2 rs z i).1 hhas
      exact ⟨v, (hL v).2 ⟨_, es', h1, hl, binFor_iff.1 hbf, hv⟩, hs⟩
    · rintro ⟨v, hv, hs⟩
      obtain ⟨k', es', h1, h2, h3, h4⟩ := (hL v).1 hv
      obtain ⟨e', h5, h6⟩ := content_find hr h1
      obtain ⟨g', hg', hgx', hmem'⟩ := data_group hb hfin hasc hne h5 (binFor_iff.2 h3)
      have : g' = g := groups_distinct hb hfin hasc hne hg' hg (by rw [hgx, hgx'])
      subst this
      exact ⟨_, hmem', h2, (h6 rs z i).2 ⟨v, h4, hs⟩⟩

/-- **C77**: there are no other rows, and each key is there once. -/
theorem C77_nothing_else (o : IterOrder) (cs : List Call) (hc : ∀ c ∈ cs, c.Wf)
    (b : Builder) (hrun : Builder.run cs = some b)
    (db : SMap Bytes Bytes) (hfin : finish o b = some db)
    (hasc : (lastBounds cs).Pairwise (· ≤ ·)) :
    (db.map Prod.fst).Nodup ∧ ∀ r ∈ db,
      (∃ k es, Content.run cs k = some es ∧ RowKey 0 k r.1) ∨
      (∃ x k es, Content.run cs k = some es ∧ InBin (lastBounds cs) k.phraseId x ∧
        RowKey 1 ⟨x, k.langSet⟩ r.1) ∨
      BoundsRow (lastBounds cs) r := by
  have hr := refines_run hc hrun
  have hb := hr.wf
  rw [← run_bounds hrun] at *
  refine ⟨(finish_sorted hfin).keys_nodup, fun r hrm => ?_⟩
  rcases finish_rows hb hfin hrm with ⟨k, e, h1, rfl⟩ | ⟨k, hk, h1⟩ | h1
  · obtain ⟨es, h2, _⟩ := data_content hr h1
    exact Or.inl ⟨k, es, h2, (rowKey_iff (m := .singlePhrase) (hb.keys _ h1)).2 rfl⟩
  · right; left
    have hne : b.bounds ≠ [] := by
      intro hnil
      obtain ⟨_, hdb⟩ := finish_eq_some.1 hfin
      have hf := (SMap.mem_iff_find (finish_sorted hfin) (k := r.1) (v := r.2)).1 hrm
      rw [← hdb] at hf
      rcases mem_of_find_applyPuts hf with h0 | hp
      · simp [SMap.find] at h0
      rcases mem_finishPuts_cases hp with ⟨q, hq, e⟩ | ⟨g, hg, bin, hbin, le, hle, e⟩ | ⟨e, _⟩
      · have e1 := congrArg Prod.fst e
        simp only at e1
        rw [h1] at e1
        exact absurd (dbKey_inj hk (hb.keys q hq) e1).1 (by decide)
      · have hg2 := group_nonempty hfin hg
        obtain ⟨row, hrow⟩ := List.exists_mem_of_ne_nil _ hg2
        have h2 := binGroups_mem hg hrow
        exact assignBins_cur (P := fun _ => False) (s := BinState.init b.bounds)
          (by simp [hnil, BinState.init]) (by simp [BinState.init]) row h2.1 bin
          (by rw [h2.2, hbin])
      · have e1 := congrArg Prod.fst e
        simp only at e1
        rw [h1] at e1
        exact absurd e1 (dbKey_ne_bounds _ _)
    have hm : (k.dbKey .prefixBin, r.2) ∈ db := by rw [← h1]; exact hrm
    obtain ⟨g, hg, hgx, e, he, _⟩ := (bin_row_iff hb hfin hasc hne hk).1 hm
    obtain ⟨row, hrow, hl⟩ := langMap_langs he
    obtain ⟨row', hrow', rfl⟩ := List.mem_map.1 hrow
    obtain ⟨y, hy, hbf⟩ := group_binFor hb hfin hasc hne hg hrow'
    rw [hgx] at hy
    cases hy
    obtain ⟨es', h2, _⟩ := data_content hr (k := row'.2.1) (e := row'.2.2)
      (binGroups_data hg hrow')
    refine ⟨k.phraseId, row'.2.1, es', h2, binFor_iff.1 hbf, ?_⟩
    have hl : row'.2.1.langSet = k.langSet := hl
    rw [hl]
    exact (rowKey_iff (m := .prefixBin) hk).2 h1
  · right; right
    have hf := (SMap.mem_iff_find (finish_sorted hfin) (k := r.1) (v := r.2)).1 hrm
    rw [h1, find_bounds hfin] at hf
    exact boundsRow_iff.2 ⟨hb.bounds, Prod.ext h1 (Option.some.inj hf).symm⟩

/-- **C77**: `get` reads every record laid out so, whoever wrote it: the entries its numbers stand
for, in the order of the numbers. -/
theorem C77_get (s : Store) (hs : SMap.Sorted s.db) (k : GridKey) (hk : k.Wf)
    (r : Bytes × Bytes) (hr : r ∈ s.db) (hkey : RowKey 0 k r.1)
    (groups : List (ℕ × List (ℕ × List ℕ))) (hrec : Record r.2 groups)
    (hlen : r.2.length < 2 ^ 32) :
    ∃ es, s.get k = some (some es) ∧ List.Forall₂ Unpacked (numbers groups) es := by
  obtain ⟨es, h1, h2⟩ := hrec.decode hlen
  refine ⟨es, ?_, h2⟩
  have hkey' := (rowKey_iff (m := .singlePhrase) hk).1 hkey
  have hf := (SMap.mem_iff_find hs (k := r.1) (v := r.2)).1 hr
  rw [hkey'] at hf
  unfold Store.get
  rw [hf]
  simp [h1]

/-- **C77**: opening reads every row of boundaries laid out so, whoever wrote it. -/
theorem C77_boundaries (db : SMap Bytes Bytes) (hs : SMap.Sorted db) (r : Bytes × Bytes)
    (hr : r ∈ db) (bounds : List ℕ) (hb : BoundsRow bounds r) (zoom typeId : ℕ) (radius : F64)
    (bboxes : List BBox) (maxScore : F64) :
    (Store.openWith db zoom typeId radius bboxes maxScore).bounds = bounds := by
  obtain ⟨h1, rfl⟩ := boundsRow_iff.1 hb
  unfold Store.openWith
  simp only [(SMap.mem_iff_find hs).1 hr]
  exact C14_boundaries_roundtrip bounds h1

/-- **C77**: whatever builders leave in a directory is laid out so, even when builds were abandoned. -/
theorem C77_laid_out (db : SMap Bytes Bytes) (hd : Directory db) (hsmall : SmallRecords db) :
    LaidOut db := hd.laidOut hsmall

/-- The history, its rows and the bin of a phrase: the hypotheses above are met. -/
example : ∃ b db, Builder.run exampleCalls = some b ∧ finish .rev b = some db ∧
    SmallRecords db ∧ Content.run exampleCalls ⟨2, 256⟩ = some [⟨1, 0, 0, 0, 0, 0⟩] ∧
    (lastBounds exampleCalls).Pairwise (· < ·) ∧ InBin (lastBounds exampleCalls) 3 2 ∧
    InBin (lastBounds exampleCalls) 1 0 ∧
    (∃ r ∈ db, r = ([0, 0, 0, 0, 2, 1, 0],
      [1, 0, 0, 0, 0, 1, 5, 0, 0, 0, 0, 0, 1, 48, 5, 12, 0, 0, 0])) := by
  refine ⟨(Builder.run exampleCalls).get (by decide +kernel),
    (finish .rev ((Builder.run exampleCalls).get (by decide +kernel))).get (by decide +kernel),
    by simp, by simp, by decide +kernel, by decide +kernel, by decide +kernel, ?_, ?_, ?_⟩
  · unfold InBin; decide +kernel
  · unfold InBin; decide +kernel
  · decide +kernel

/-- A record no builder writes (an unused byte, a pointer wider than needed) that is laid out all
the same. -/
def foreignRecord : Bytes :=
  [1, 5, 3, 0, 0] ++ [99] ++ [1, 8, 12, 0, 0, 0, 0, 0, 0, 0] ++ [1, 0x35, 6] ++ [16, 0, 0, 0]

theorem foreignRecord_record : Record foreignRecord [(0x35, [(12, [773])])] := by
  have hids : IdsAt foreignRecord 0 [773] :=
    ⟨[1], [[5, 3, 0, 0]], ⟨by decide, by decide⟩, ⟨[], 1, by decide, by decide, by decide, rfl⟩,
      .cons ⟨rfl, by decide, by decide⟩ .nil⟩
  have htiles : TilesAt foreignRecord 6 [(12, [773])] :=
    ⟨[1], 8, [[12, 0, 0, 0, 0, 0, 0, 0]], ⟨by decide, by decide⟩,
      ⟨[], 1, by decide, by decide, by decide, rfl⟩, by decide,
      .cons ⟨[12, 0, 0, 0], [0, 0, 0, 0], 0, rfl, ⟨rfl, by decide, by decide⟩,
        ⟨rfl, by decide, by decide⟩, hids⟩ .nil⟩
  exact ⟨_, [16, 0, 0, 0], 16, rfl, ⟨rfl, by decide, by decide⟩,
    [1], [[0x35, 6]], ⟨by decide, by decide⟩, ⟨[], 1, by decide, by decide, by decide, rfl⟩,
    .cons ⟨[6], 6, by decide, rfl, ⟨[], 6, by decide, by decide, by decide, rfl⟩, htiles⟩ .nil⟩

/-- A store no builder writes. -/
def foreignDb : SMap Bytes Bytes :=
  [([0, 0, 0, 0, 7, 1], foreignRecord), ("~BOUNDS".toList.map Char.toNat, [3, 0, 0, 0, 9, 1, 0, 0])]

theorem foreignDb_laid : LaidOut foreignDb := by
  refine ⟨by unfold SMap.Sorted; decide +kernel, by decide +kernel, ?_⟩
  intro r hr
  simp only [foreignDb, List.mem_cons, List.not_mem_nil, or_false] at hr
  rcases hr with rfl | rfl
  · exact Or.inl ⟨0, ⟨7, 1⟩, _, Or.inl rfl, by decide +kernel,
      ⟨[0, 0, 0, 7], ⟨rfl, by decide, by decide⟩, by decide +kernel⟩, by decide,
      foreignRecord_record, by simp [TilesInOrder]⟩
  · exact Or.inr rfl

/-- It reads as laid out. -/
example : LaidOut foreignDb ∧
    BoundsRow [3, 265] ("~BOUNDS".toList.map Char.toNat, [3, 0, 0, 0, 9, 1, 0, 0]) ∧
    (Store.openWith foreignDb 6 0 0 [] 0).bounds = [3, 265] ∧
    (Store.new foreignDb).get ⟨7, 1⟩ = some (some [⟨1, 5, 2, 2, 3, 5⟩]) ∧
    encodeValue .id [(0x35, [(12, [773])])] ≠ foreignRecord := by
  refine ⟨foreignDb_laid, ⟨rfl, [[3, 0, 0, 0], [9, 1, 0, 0]], .cons ⟨rfl, by decide, by decide⟩
    (.cons ⟨rfl, by decide, by decide⟩ .nil), rfl⟩, by decide +kernel, by decide +kernel,
    by decide +kernel⟩

end Carmen
