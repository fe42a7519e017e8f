import Mathlib.Order.OrderDual
import Verif.Lemmas.QueryOrder

/-!
# Prefix bins
-/

namespace Carmen
open Format Spec Builder

/-- The bin `x` that `finish` puts phrase `pid` into: the last boundary not above the phrase,
or the first boundary for phrases below all of them. -/
structure BinFor (bounds : List ℕ) (pid x : ℕ) : Prop where
  mem : x ∈ bounds
  low : x ≤ pid ∨ ∀ y ∈ bounds, x ≤ y
  high : ∀ y ∈ bounds, x < y → pid < y

theorem BinFor.mono {bounds : List ℕ} {p p' x x' : ℕ} (h : BinFor bounds p x)
    (h' : BinFor bounds p' x') (hp : p ≤ p') : x ≤ x' := by
  by_contra hlt
  rw [not_le] at hlt
  have h1 := h'.high x h.mem hlt
  rcases h.low with h2 | h2
  · omega
  · exact absurd (h2 x' h'.mem) (by omega)

/-- The state of the bin closure after a step. -/
structure BinInv (bounds : List ℕ) (p : ℕ) (s : BinState) (pre : List ℕ) (x : ℕ) : Prop where
  split : bounds = pre ++ x :: s.seq
  cur : s.cur = some x
  next : s.next = s.seq.head?.getD u32Max
  low : pre = [] ∨ x ≤ p

theorem advance_inv {bounds : List ℕ} {pid : ℕ} (hp : pid < u32Max) :
    ∀ (seq pre : List ℕ) (x : ℕ) (s : BinState), bounds = pre ++ x :: seq →
      (pre = [] ∨ x ≤ pid) →
      advance pid seq (some x) (seq.head?.getD u32Max) = some s →
      ∃ pre' x', BinInv bounds pid s pre' x' ∧ pid < s.next := by
  intro seq
  induction seq with
  | nil =>
    intro pre x s hb hl h
    unfold advance at h
    have : pid < ([] : List ℕ).head?.getD u32Max := hp
    rw [if_pos this] at h
    cases h
    exact ⟨pre, x, ⟨hb, rfl, rfl, hl⟩, hp⟩
  | cons y t ih =>
    intro pre x s hb hl h
    unfold advance at h
    by_cases hy : pid < (y :: t).head?.getD u32Max
    · rw [if_pos hy] at h
      cases h
      exact ⟨pre, x, ⟨hb, rfl, rfl, hl⟩, hy⟩
    · rw [if_neg hy] at h
      have hy' : y ≤ pid := by simpa using hy
      exact ih (pre ++ [x]) y s (by rw [hb]; simp) (Or.inr hy') h

theorem BinInv.binFor {bounds pre : List ℕ} {p x : ℕ} {s : BinState}
    (hs : bounds.Pairwise (· ≤ ·)) (h : BinInv bounds p s pre x) (hn : p < s.next) :
    BinFor bounds p x := by
  have hsp := h.split
  rw [hsp] at hs
  rw [List.pairwise_append, List.pairwise_cons] at hs
  refine ⟨by rw [hsp]; simp, ?_, ?_⟩
  · rcases h.low with hl | hl
    · right
      intro y hy
      rw [hsp, hl, List.nil_append] at hy
      rcases List.mem_cons.1 hy with rfl | hy
      · exact le_rfl
      · exact hs.2.1.1 y hy
    · exact Or.inl hl
  · intro y hy hxy
    rw [hsp, List.mem_append, List.mem_cons] at hy
    rcases hy with hy | rfl | hy
    · exact absurd (hs.2.2 y hy x (List.mem_cons_self ..)) (by omega)
    · omega
    · rw [h.next] at hn
      cases hseq : s.seq with
      | nil => rw [hseq] at hy; simp at hy
      | cons a t =>
        rw [hseq] at hy hn hs
        have hn' : p < a := by simpa using hn
        rcases List.mem_cons.1 hy with rfl | hy
        · exact hn'
        · exact lt_of_lt_of_le hn' ((List.pairwise_cons.1 hs.2.1.2).1 y hy)

theorem assignBins_from {bounds : List ℕ} (hs : bounds.Pairwise (· ≤ ·)) :
    ∀ (rows : List (GridKey × BuilderEntry)) (s : BinState) (p x : ℕ) (pre : List ℕ),
      BinInv bounds p s pre x → (∀ r ∈ rows, r.1.phraseId < u32Max) →
      (∀ r ∈ rows, p ≤ r.1.phraseId) →
      rows.Pairwise (fun a b => a.1.phraseId ≤ b.1.phraseId) →
      ∀ r ∈ (assignBins s rows).1, ∃ y, r.1 = some y ∧ BinFor bounds r.2.1.phraseId y := by
  intro rows
  induction rows with
  | nil => intro s p x pre _ _ _ _ r hr; simp [assignBins] at hr
  | cons kv t ih =>
    intro s p x pre hinv hmax hle hpw r hr
    have hkv := hmax kv (List.mem_cons_self ..)
    obtain ⟨s', hs'⟩ := advance_isSome hkv s.seq s.cur s.next
    have hlow : pre = [] ∨ x ≤ kv.1.phraseId := by
      rcases hinv.low with h | h
      · exact Or.inl h
      · exact Or.inr (h.trans (hle kv (List.mem_cons_self ..)))
    have hadv := hs'
    rw [hinv.cur, hinv.next] at hadv
    obtain ⟨pre', x', hinv', hn'⟩ := advance_inv hkv _ _ _ _ hinv.split hlow hadv
    unfold assignBins at hr
    rw [hs'] at hr
    rcases List.mem_cons.1 hr with rfl | hr
    · exact ⟨x', hinv'.cur, hinv'.binFor hs hn'⟩
    · rw [List.pairwise_cons] at hpw
      exact ih s' _ x' pre' hinv' (fun r hr => hmax r (List.mem_cons_of_mem _ hr)) hpw.1 hpw.2 r hr

theorem assignBins_binFor {bounds : List ℕ} (hs : bounds.Pairwise (· ≤ ·)) (hne : bounds ≠ [])
    {rows : List (GridKey × BuilderEntry)} (hmax : ∀ r ∈ rows, r.1.phraseId < u32Max)
    (hpw : rows.Pairwise (fun a b => a.1.phraseId ≤ b.1.phraseId)) :
    ∀ r ∈ (assignBins (BinState.init bounds) rows).1,
      ∃ y, r.1 = some y ∧ BinFor bounds r.2.1.phraseId y := by
  cases bounds with
  | nil => exact absurd rfl hne
  | cons a bs =>
    cases rows with
    | nil => intro r hr; simp [assignBins] at hr
    | cons kv t =>
      intro r hr
      have hkv := hmax kv (List.mem_cons_self ..)
      obtain ⟨s', hs'⟩ := advance_isSome hkv bs (some a) (bs.head?.getD u32Max)
      obtain ⟨pre', x', hinv', hn'⟩ := advance_inv (bounds := a :: bs) hkv bs [] a s' rfl
        (Or.inl rfl) hs'
      have hstart : advance kv.1.phraseId (a :: bs) none 0 = some s' := by
        unfold advance
        rw [if_neg (by omega)]
        exact hs'
      unfold assignBins at hr
      simp only [BinState.init] at hr
      rw [hstart] at hr
      rw [List.pairwise_cons] at hpw
      rcases List.mem_cons.1 hr with rfl | hr
      · exact ⟨x', hinv'.cur, hinv'.binFor hs hn'⟩
      · exact assignBins_from hs t s' _ x' pre' hinv'
          (fun r hr => hmax r (List.mem_cons_of_mem _ hr)) hpw.1 hpw.2 r hr

section
variable {o : IterOrder} {b : Builder} {db : SMap Bytes Bytes}

theorem data_phrases_sorted (hb : b.Wf) :
    b.data.Pairwise (fun a b => a.1.phraseId ≤ b.1.phraseId) := by
  refine hb.sorted.imp ?_
  intro x y hxy
  have h : x.1.toPair < y.1.toPair := hxy
  unfold GridKey.toPair at h
  rw [Prod.Lex.toLex_lt_toLex] at h
  rcases h with h | h
  · exact le_of_lt h
  · exact le_of_eq h.1

theorem data_phrases_lt (hb : b.Wf) (hfin : finish o b = some db) :
    ∀ r ∈ b.data, r.1.phraseId < u32Max := by
  intro r hr
  by_contra hge
  have h1 := (hb.keys r hr).1
  have h2 : r.1.phraseId = u32Max := by unfold u32Max at hge ⊢; omega
  have h3 := assignBins_stuck (s := BinState.init b.bounds) hb.bounds (Nat.zero_le _) ⟨r, hr, h2⟩
  have h4 : b.binGroups.2 = true := by rw [← finishPuts_snd (o := o)]; exact (finish_eq_some.1 hfin).1
  rw [show b.binGroups.2 = (assignBins (BinState.init b.bounds) b.data).2 from rfl, h3] at h4
  exact absurd h4 (by decide)

theorem groups_eq (hfin : finish o b = some db) :
    b.binGroups.1 = groupBy (fun x : Option ℕ × (GridKey × BuilderEntry) => x.1)
      (assignBins (BinState.init b.bounds) b.data).1 := by
  have h4 : b.binGroups.2 = true := by rw [← finishPuts_snd (o := o)]; exact (finish_eq_some.1 hfin).1
  have h5 : (assignBins (BinState.init b.bounds) b.data).2 = true := h4
  unfold binGroups
  simp only
  rw [if_pos h5]

theorem group_binFor (hb : b.Wf) (hfin : finish o b = some db)
    (hs : b.bounds.Pairwise (· ≤ ·)) (hne : b.bounds ≠ [])
    {g : Option ℕ × List (Option ℕ × (GridKey × BuilderEntry))} (hg : g ∈ b.binGroups.1)
    {r : Option ℕ × (GridKey × BuilderEntry)} (hr : r ∈ g.2) :
    ∃ y, g.1 = some y ∧ BinFor b.bounds r.2.1.phraseId y := by
  obtain ⟨h1, h2⟩ := binGroups_mem hg hr
  rw [← h2]
  exact assignBins_binFor hs hne (data_phrases_lt hb hfin) (data_phrases_sorted hb) r h1

theorem group_nonempty (hfin : finish o b = some db)
    {g : Option ℕ × List (Option ℕ × (GridKey × BuilderEntry))} (hg : g ∈ b.binGroups.1) :
    g.2 ≠ [] := by
  rw [groups_eq hfin] at hg
  exact (groupBy_isGrouping _ _).nonempty g hg

theorem assignBins_sorted (hb : b.Wf) (hfin : finish o b = some db)
    (hs : b.bounds.Pairwise (· ≤ ·)) (hne : b.bounds ≠ []) :
    (assignBins (BinState.init b.bounds) b.data).1.Pairwise
      (fun a b => a.1.getD 0 ≤ b.1.getD 0) := by
  have h4 : (assignBins (BinState.init b.bounds) b.data).2 = true := by
    have : b.binGroups.2 = true := by rw [← finishPuts_snd (o := o)]; exact (finish_eq_some.1 hfin).1
    exact this
  have h := data_phrases_sorted hb
  rw [← assignBins_all h4, List.pairwise_map] at h
  refine h.imp_of_mem ?_
  intro x y hx hy hxy
  have hbin := assignBins_binFor hs hne (data_phrases_lt hb hfin) (data_phrases_sorted hb)
  obtain ⟨u, hu, hu'⟩ := hbin x hx
  obtain ⟨v, hv, hv'⟩ := hbin y hy
  rw [hu, hv]
  exact hu'.mono hv' hxy

/-- With ascending boundaries no two groups are one bin. -/
theorem groups_distinct (hb : b.Wf) (hfin : finish o b = some db)
    (hs : b.bounds.Pairwise (· ≤ ·)) (hne : b.bounds ≠ [])
    {g g' : Option ℕ × List (Option ℕ × (GridKey × BuilderEntry))} (hg : g ∈ b.binGroups.1)
    (hg' : g' ∈ b.binGroups.1) (h : g.1 = g'.1) : g = g' := by
  have hgr := groupBy_isGrouping (fun x : Option ℕ × (GridKey × BuilderEntry) => x.1)
      (assignBins (BinState.init b.bounds) b.data).1
  rw [← groups_eq hfin] at hgr
  have hsome : ∀ g ∈ b.binGroups.1, ∃ y, g.1 = some y := by
    intro g hg
    obtain ⟨r, hr⟩ := List.exists_mem_of_ne_nil _ (group_nonempty hfin hg)
    obtain ⟨y, hy, _⟩ := group_binFor hb hfin hs hne hg hr
    exact ⟨y, hy⟩
  have hle : b.binGroups.1.Pairwise (fun a b => a.1.getD 0 ≤ b.1.getD 0) := by
    have h1 := assignBins_sorted hb hfin hs hne
    have h2 : ((assignBins (BinState.init b.bounds) b.data).1.map
        (fun x : Option ℕ × (GridKey × BuilderEntry) => x.1)).Pairwise
          (fun a b => a.getD 0 ≤ b.getD 0) := List.pairwise_map.2 h1
    rw [← hgr.labels, List.pairwise_flatMap] at h2
    refine h2.2.imp_of_mem ?_
    intro a c ha hc hac
    obtain ⟨x, hx⟩ := List.exists_mem_of_ne_nil _ (hgr.nonempty a ha)
    obtain ⟨y, hy⟩ := List.exists_mem_of_ne_nil _ (hgr.nonempty c hc)
    exact hac _ (List.mem_map.2 ⟨x, hx, rfl⟩) _ (List.mem_map.2 ⟨y, hy, rfl⟩)
  have hstrict : (b.binGroups.1.map (fun g => (OrderDual.toDual (g.1.getD 0), g.2))).Pairwise
      (fun a b => b.1 < a.1) := by
    refine pairwise_strict_of_chain (List.pairwise_map.2 (hle.imp (fun h => h))) ?_
    rw [List.isChain_map]
    refine List.IsChain.imp_of_mem_imp ?_ hgr.maximal
    intro a c ha hc hac he
    obtain ⟨x, hx⟩ := hsome a ha
    obtain ⟨y, hy⟩ := hsome c hc
    rw [hx, hy] at he hac
    exact hac (congrArg some (OrderDual.toDual_inj.1 he))
  rw [List.pairwise_map] at hstrict
  by_contra hne'
  have hsymm := hstrict.imp (S := fun a c => a.1 ≠ c.1) (fun {a c} hac he => by
    rw [he] at hac; exact lt_irrefl _ hac)
  have : Std.Symm (fun a c : Option ℕ × List (Option ℕ × (GridKey × BuilderEntry)) =>
    a.1 ≠ c.1) := ⟨fun a c h he => h he.symm⟩
  exact hsymm.forall hg hg' hne' h

/-! ## Merged rows -/

theorem langMap_wf (o : IterOrder) (rows : List (GridKey × BuilderEntry)) :
    HMap.Wf (langMap o rows) :=
  hmap_foldl_wf (fun kv : GridKey × BuilderEntry => kv.1.langSet) []
    (fun kv d => copyEntries o kv.2 d) rows [] HMap.wf_nil

theorem langMap_fold_has (o : IterOrder) (rows : List (GridKey × BuilderEntry))
    (hw : ∀ r ∈ rows, EntryWf r.2) (l rs z i : ℕ) : ∀ m : HMap ℕ BuilderEntry,
    Has ((HMap.find l (rows.foldl (fun m kv => HMap.upsert kv.1.langSet []
        (fun d => copyEntries o kv.2 d) m) m)).getD []) rs z i ↔
      Has ((HMap.find l m).getD []) rs z i ∨ ∃ r ∈ rows, r.1.langSet = l ∧ Has r.2 rs z i := by
  induction rows with
  | nil => intro m; simp
  | cons r t ih =>
    intro m
    rw [List.foldl_cons, ih (fun r hr => hw r (List.mem_cons_of_mem _ hr)), HMap.find_upsert]
    by_cases hl : l = r.1.langSet
    · rw [if_pos hl, Option.getD_some, has_copyEntries (hw r (List.mem_cons_self ..)), ← hl]
      constructor
      · rintro ((h | h) | ⟨r', h1, h2, h3⟩)
        · exact Or.inl h
        · exact Or.inr ⟨r, List.mem_cons_self .., hl.symm, h⟩
        · exact Or.inr ⟨r', List.mem_cons_of_mem _ h1, h2, h3⟩
      · rintro (h | ⟨r', h1, h2, h3⟩)
        · exact Or.inl (Or.inl h)
        · rcases List.mem_cons.1 h1 with rfl | h1
          · exact Or.inl (Or.inr h3)
          · exact Or.inr ⟨r', h1, h2, h3⟩
    · rw [if_neg hl]
      constructor
      · rintro (h | ⟨r', h1, h2, h3⟩)
        · exact Or.inl h
        · exact Or.inr ⟨r', List.mem_cons_of_mem _ h1, h2, h3⟩
      · rintro (h | ⟨r', h1, h2, h3⟩)
        · exact Or.inl h
        · rcases List.mem_cons.1 h1 with rfl | h1
          · exact absurd h2.symm hl
          · exact Or.inr ⟨r', h1, h2, h3⟩

theorem langMap_has {rows : List (GridKey × BuilderEntry)} (hw : ∀ r ∈ rows, EntryWf r.2)
    {l : ℕ} {e : BuilderEntry} (he : (l, e) ∈ langMap o rows) {rs z i : ℕ} :
    Has e rs z i ↔ ∃ r ∈ rows, r.1.langSet = l ∧ Has r.2 rs z i := by
  have h := langMap_fold_has o rows hw l rs z i []
  have hf := HMap.find_of_mem (langMap_wf o rows) he
  unfold langMap at hf
  rw [hf] at h
  simpa [HMap.find, has_nil] using h

theorem langMap_isSome (o : IterOrder) (rows : List (GridKey × BuilderEntry)) {l rs z i : ℕ}
    (hw : ∀ r ∈ rows, EntryWf r.2) (h : ∃ r ∈ rows, r.1.langSet = l ∧ Has r.2 rs z i) :
    ∃ e, (l, e) ∈ langMap o rows := by
  have h1 := (langMap_fold_has o rows hw l rs z i []).2 (Or.inr h)
  cases hf : HMap.find l (langMap o rows) with
  | some e => exact ⟨e, HMap.mem_of_find hf⟩
  | none =>
    unfold langMap at hf
    rw [hf] at h1
    exact absurd h1 (has_nil _ _ _)

theorem group_wf (hb : b.Wf)
    {g : Option ℕ × List (Option ℕ × (GridKey × BuilderEntry))} (hg : g ∈ b.binGroups.1) :
    ∀ r ∈ g.2.map (·.2), EntryWf r.2 ∧ EntryBounds r.2 := by
  intro r hr
  obtain ⟨r', hr', rfl⟩ := List.mem_map.1 hr
  exact hb.entries _ (binGroups_data hg hr')

/-- The bin rows of a store with ascending boundaries. -/
theorem bin_row_iff (hb : b.Wf) (hfin : finish o b = some db)
    (hs : b.bounds.Pairwise (· ≤ ·)) (hne : b.bounds ≠ []) {k : GridKey} (hk : k.Wf)
    {v : Bytes} : (k.dbKey .prefixBin, v) ∈ db ↔
      ∃ g ∈ b.binGroups.1, g.1 = some k.phraseId ∧ ∃ e,
        (k.langSet, e) ∈ langMap o (g.2.map (·.2)) ∧ v = encodeValue o e := by
  rw [SMap.mem_iff_find (finish_sorted hfin)]
  obtain ⟨hend, h2⟩ := finish_eq_some.1 hfin
  have hput : ∀ p ∈ (finishPuts o b).1, p.1 = k.dbKey .prefixBin →
      ∃ g ∈ b.binGroups.1, g.1 = some k.phraseId ∧ ∃ e,
        (k.langSet, e) ∈ langMap o (g.2.map (·.2)) ∧ p.2 = encodeValue o e := by
    intro p hp hpk
    rcases mem_finishPuts_cases hp with ⟨x, hx, rfl⟩ | ⟨g, hg, bin, hbin, le, hle, rfl⟩ | ⟨rfl, _⟩
    · exact absurd (dbKey_inj (hb.keys x hx) hk hpk).1 (by decide)
    · have := (dbKey_inj (bin_key_wf hb hg hbin hle) hk hpk).2
      refine ⟨g, hg, by rw [hbin, ← this], le.2, ?_, rfl⟩
      rw [← this]
      exact hle
    · exact absurd hpk.symm (dbKey_ne_bounds _ _)
  constructor
  · intro hf
    rw [← h2] at hf
    rcases mem_of_find_applyPuts hf with hn | hm
    · simp [SMap.find] at hn
    · exact hput _ hm rfl
  · rintro ⟨g, hg, hgk, e, he, rfl⟩
    rw [← h2]
    refine find_applyPuts_of_unique ?_ ?_
    · unfold finishPuts
      have h4 : b.binGroups.2 = true := by rw [← finishPuts_snd (o := o)]; exact hend
      simp only
      rw [if_pos h4]
      refine List.mem_append_left _ (List.mem_flatMap.2 ⟨g, hg, ?_⟩)
      exact mem_groupPuts.2 (Or.inr ⟨k.phraseId, hgk, _, he, rfl⟩)
    · intro p hp hpk
      obtain ⟨g', hg', hgk', e', he', hp2⟩ := hput p hp hpk
      have hgg : g' = g := groups_distinct hb hfin hs hne hg' hg (hgk'.trans hgk.symm)
      subst hgg
      rw [hp2]
      have h5 := HMap.find_of_mem (langMap_wf o _) he
      have h6 := HMap.find_of_mem (langMap_wf o _) he'
      rw [h5] at h6
      cases h6
      rfl

theorem mem_decodeValue {e : BuilderEntry} (hw : EntryWf e) (hbd : EntryBounds e)
    (hlen : (encodeValue o e).length < 2 ^ 32) {es : List GridEntry}
    (hes : decodeValue (encodeValue o e) = some es) {x : GridEntry} :
    x ∈ es ↔ ∃ rs z i, Has e rs z i ∧ x = entryOf rs z i := by
  obtain ⟨rec, hrec, hshape⟩ := encodeValue_readsAs o e hbd hlen
  rw [hrec.decodeValue, hshape] at hes
  cases hes
  rw [shapeEntries_eq, List.mem_map]
  constructor
  · rintro ⟨⟨rs, z, i⟩, h, rfl⟩
    exact ⟨rs, z, i, (mem_triples_normEntry hw).1 h, rfl⟩
  · rintro ⟨rs, z, i, h, rfl⟩
    exact ⟨(rs, z, i), (mem_triples_normEntry hw).2 h, rfl⟩

end

end Carmen
