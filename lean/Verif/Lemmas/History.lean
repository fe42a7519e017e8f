import Verif.Lemmas.Finish
import Verif.Spec.History
import Verif.Model.Store

/-! Builder histories refine the map of sets. -/

set_option linter.unusedSectionVars false

namespace Carmen
open Format Spec

/-! ### renumber -/

/-- The key a key is sent to. -/
def newKey (ids : List ℕ) (k : GridKey) : Option GridKey := ids[k.phraseId]?.map (⟨·, k.langSet⟩)

theorem newKey_eq_some {ids : List ℕ} {k k' : GridKey} :
    newKey ids k = some k' ↔ ids[k.phraseId]? = some k'.phraseId ∧ k.langSet = k'.langSet := by
  unfold newKey
  rw [Option.map_eq_some_iff]
  constructor
  · rintro ⟨n, h, rfl⟩; exact ⟨h, rfl⟩
  · rintro ⟨h, hl⟩; exact ⟨k'.phraseId, h, by rw [hl]⟩

namespace Builder

theorem renumberLoop_ok {ids : List ℕ} (rows : List (GridKey × BuilderEntry)) :
    ∀ {acc : SMap GridKey BuilderEntry}, SMap.Sorted acc →
      (renumberLoop ids acc rows).2 = .ok () →
      SMap.Sorted (renumberLoop ids acc rows).1 ∧
      (∀ r ∈ rows, ∃ k', newKey ids r.1 = some k' ∧ SMap.find k' acc = none) ∧
      (rows.Pairwise (fun a b => newKey ids a.1 ≠ newKey ids b.1)) ∧
      ∀ k' e, SMap.find k' (renumberLoop ids acc rows).1 = some e ↔
        SMap.find k' acc = some e ∨ ∃ k, (k, e) ∈ rows ∧ newKey ids k = some k' := by
  induction rows with
  | nil => intro acc h _; exact ⟨h, by simp, List.Pairwise.nil, by simp [renumberLoop]⟩
  | cons r t ih =>
    obtain ⟨k, v⟩ := r
    intro acc hacc h
    unfold renumberLoop at h ⊢
    cases hi : ids[k.phraseId]? with
    | none => rw [hi] at h; simp at h
    | some n =>
      rw [hi] at h
      simp only at h ⊢
      cases hf : SMap.find ⟨n, k.langSet⟩ acc with
      | some x => rw [hf] at h; simp at h
      | none =>
        rw [hf] at h
        simp only at h ⊢
        obtain ⟨h1, h2, h3, h4⟩ := ih (SMap.sorted_insert hacc) h
        have hnk : newKey ids k = some ⟨n, k.langSet⟩ := by unfold newKey; rw [hi]; rfl
        refine ⟨h1, ?_, ?_, ?_⟩
        · intro q hq
          rcases List.mem_cons.1 hq with rfl | hq
          · exact ⟨_, hnk, hf⟩
          · obtain ⟨k', hk', hn⟩ := h2 q hq
            rw [SMap.find_insert] at hn
            by_cases hc : k' = ⟨n, k.langSet⟩
            · rw [if_pos hc] at hn; cases hn
            · rw [if_neg hc] at hn; exact ⟨k', hk', hn⟩
        · refine List.pairwise_cons.2 ⟨?_, h3⟩
          intro q hq heq
          obtain ⟨k', hk', hn⟩ := h2 q hq
          simp only at heq
          rw [hnk, hk'] at heq
          cases heq
          rw [SMap.find_insert, if_pos rfl] at hn
          cases hn
        · intro k' e
          rw [h4, SMap.find_insert]
          by_cases hc : k' = ⟨n, k.langSet⟩
          · subst hc
            rw [if_pos rfl, hf]
            constructor
            · rintro (h | ⟨q, hq, hqk⟩)
              · cases h; exact Or.inr ⟨k, by simp, hnk⟩
              · exact Or.inr ⟨q, by simp [hq], hqk⟩
            · rintro (h | ⟨q, hq, hqk⟩)
              · cases h
              · rcases List.mem_cons.1 hq with hq | hq
                · cases hq; exact Or.inl rfl
                · exact Or.inr ⟨q, hq, hqk⟩
          · rw [if_neg hc]
            constructor
            · rintro (h | ⟨q, hq, hqk⟩)
              · exact Or.inl h
              · exact Or.inr ⟨q, by simp [hq], hqk⟩
            · rintro (h | ⟨q, hq, hqk⟩)
              · exact Or.inl h
              · rcases List.mem_cons.1 hq with hq | hq
                · cases hq
                  rw [hnk] at hqk
                  cases hqk
                  exact absurd rfl hc
                · exact Or.inr ⟨q, hq, hqk⟩

theorem renumberLoop_succeeds {ids : List ℕ} (rows : List (GridKey × BuilderEntry)) :
    ∀ {acc : SMap GridKey BuilderEntry},
      (∀ r ∈ rows, ∃ k', newKey ids r.1 = some k' ∧ SMap.find k' acc = none) →
      (rows.Pairwise (fun a b => newKey ids a.1 ≠ newKey ids b.1)) →
      (renumberLoop ids acc rows).2 = .ok () := by
  induction rows with
  | nil => intro acc _ _; rfl
  | cons r t ih =>
    obtain ⟨k, v⟩ := r
    intro acc h1 h2
    obtain ⟨k', hk', hn⟩ := h1 (k, v) (by simp)
    obtain ⟨hi, hl⟩ := newKey_eq_some.1 hk'
    unfold renumberLoop
    simp only [hi]
    have hkk : (⟨k'.phraseId, k.langSet⟩ : GridKey) = k' := by rw [hl]
    rw [hkk, hn]
    simp only
    refine ih ?_ (List.pairwise_cons.1 h2).2
    intro q hq
    obtain ⟨q', hq', hqn⟩ := h1 q (by simp [hq])
    refine ⟨q', hq', ?_⟩
    rw [SMap.find_insert]
    have hne : q' ≠ k' := by
      intro e
      have := (List.pairwise_cons.1 h2).1 q hq
      simp only at this
      rw [hk', hq', e] at this
      exact this rfl
    rw [if_neg hne]; exact hqn

/-! ### Preservation of well-formedness -/

theorem wf_new : Builder.new.Wf :=
  ⟨SMap.sorted_nil, by simp [Builder.new], by simp [Builder.new], by simp [Builder.new]⟩

theorem mem_smap_upsert {k : GridKey} {d : BuilderEntry} {f : BuilderEntry → BuilderEntry}
    {m : SMap GridKey BuilderEntry} (hm : SMap.Sorted m) {p : GridKey × BuilderEntry}
    (h : p ∈ SMap.upsert k d f m) :
    p ∈ m ∨ (p.1 = k ∧ ∃ e, (e = d ∨ (k, e) ∈ m) ∧ p.2 = f e) := by
  have hp := (SMap.mem_iff_find (SMap.sorted_upsert hm) (k := p.1) (v := p.2)).1 h
  rw [SMap.find_upsert] at hp
  by_cases hk : p.1 = k
  · rw [if_pos hk] at hp
    right
    refine ⟨hk, (SMap.find k m).getD d, ?_, ?_⟩
    · cases hf : SMap.find k m with
      | none => exact Or.inl rfl
      | some e => exact Or.inr ((SMap.mem_iff_find hm).2 hf)
    · simpa using hp.symm
  · rw [if_neg hk] at hp
    exact Or.inl ((SMap.mem_iff_find hm).2 hp)

theorem wf_upsert {b : Builder} (hb : b.Wf) {k : GridKey} (hk : k.Wf)
    {f : BuilderEntry → BuilderEntry}
    (hf : ∀ e, EntryWf e → EntryBounds e → EntryWf (f e) ∧ EntryBounds (f e)) :
    (⟨SMap.upsert k [] f b.data, b.bounds⟩ : Builder).Wf := by
  refine ⟨SMap.sorted_upsert hb.sorted, ?_, ?_, hb.bounds⟩
  · intro r hr
    rcases mem_smap_upsert hb.sorted hr with h | ⟨h, _⟩
    · exact hb.keys r h
    · rw [h]; exact hk
  · intro r hr
    rcases mem_smap_upsert hb.sorted hr with h | ⟨_, e, he, h⟩
    · exact hb.entries r h
    · rw [h]
      rcases he with rfl | he
      · exact hf _ entryWf_nil (by intro g hg; simp at hg)
      · exact hf _ (hb.entries _ he).1 (hb.entries _ he).2

theorem wf_insert {b : Builder} (hb : b.Wf) {k : GridKey} (hk : k.Wf) {es : List GridEntry}
    (hes : ∀ e ∈ es, e.Wf) : (b.insert k es).Wf := by
  refine ⟨SMap.sorted_insert hb.sorted, ?_, ?_, hb.bounds⟩
  · intro r hr
    have hr' := (SMap.mem_iff_find (SMap.sorted_insert hb.sorted) (k := r.1) (v := r.2)).1 hr
    rw [SMap.find_insert] at hr'
    by_cases h : r.1 = k
    · rw [h]; exact hk
    · rw [if_neg h] at hr'
      exact hb.keys r ((SMap.mem_iff_find hb.sorted).2 hr')
  · intro r hr
    have hr' := (SMap.mem_iff_find (SMap.sorted_insert hb.sorted) (k := r.1) (v := r.2)).1 hr
    rw [SMap.find_insert] at hr'
    by_cases h : r.1 = k
    · rw [if_pos h] at hr'
      simp only [Option.some.injEq] at hr'
      rw [← hr']
      exact ⟨entryWf_extendEntries entryWf_nil es,
        entryBounds_extendEntries (by intro g hg; simp at hg) hes⟩
    · rw [if_neg h] at hr'
      exact hb.entries r ((SMap.mem_iff_find hb.sorted).2 hr')

theorem wf_append {b : Builder} (hb : b.Wf) {k : GridKey} (hk : k.Wf) {es : List GridEntry}
    (hes : ∀ e ∈ es, e.Wf) : (b.append k es).Wf :=
  wf_upsert hb hk (fun _ h1 h2 =>
    ⟨entryWf_extendEntries h1 es, entryBounds_extendEntries h2 hes⟩)

theorem wf_compactAppend {b : Builder} (hb : b.Wf) {k : GridKey} (hk : k.Wf) (relev : F64)
    {score id hash : ℕ} (hs : score < 2 ^ 8) (hh : hash < 2 ^ 8) (tiles : List (ℕ × ℕ)) :
    (b.compactAppend k relev score id hash tiles).Wf :=
  wf_upsert hb hk (fun _ h1 h2 =>
    ⟨entryWf_compactEntry h1 relev score id hash tiles, entryBounds_compactEntry h2 hs hh tiles⟩)

theorem wf_renumber {b : Builder} (hb : b.Wf) {ids : List ℕ} (hi : ∀ q ∈ ids, q < 2 ^ 32)
    (h : (b.renumber ids).2 = .ok ()) : (b.renumber ids).1.Wf := by
  obtain ⟨h1, _, _, h4⟩ := renumberLoop_ok b.data SMap.sorted_nil h
  have key : ∀ r ∈ (b.renumber ids).1.data, ∃ k, (k, r.2) ∈ b.data ∧ newKey ids k = some r.1 := by
    intro r hr
    have := (SMap.mem_iff_find h1 (k := r.1) (v := r.2)).1 hr
    rcases (h4 r.1 r.2).1 this with h | h
    · simp [SMap.find] at h
    · exact h
  refine ⟨h1, ?_, ?_, hb.bounds⟩
  · intro r hr
    obtain ⟨k, hk, hn⟩ := key r hr
    obtain ⟨e1, e2⟩ := newKey_eq_some.1 hn
    refine ⟨hi _ (List.mem_of_getElem? e1), ?_⟩
    rw [← e2]; exact (hb.keys _ hk).2
  · intro r hr
    obtain ⟨k, hk, _⟩ := key r hr
    exact hb.entries (k, r.2) hk

/-! ### Refinement -/

/-- The builder entry holds exactly the entries of the list. -/
def Holds (e : BuilderEntry) (es : List GridEntry) : Prop :=
  ∀ rs z i, Has e rs z i ↔ ∃ v ∈ es, StoredAs v rs z i

/-- The builder holds the content. -/
structure Refines (b : Builder) (s : Content) : Prop where
  wf : b.Wf
  absent : ∀ k, SMap.find k b.data = none ↔ s k = none
  present : ∀ k e es, SMap.find k b.data = some e → s k = some es → Holds e es

theorem Refines.of_set {b : Builder} {s : Content} {data : SMap GridKey BuilderEntry}
    (hr : Refines b s) {k : GridKey} {e : BuilderEntry} {es : List GridEntry}
    (hwf : (⟨data, b.bounds⟩ : Builder).Wf)
    (hd : ∀ k', SMap.find k' data = if k' = k then some e else SMap.find k' b.data)
    (he : Holds e es) : Refines ⟨data, b.bounds⟩ (s.set k es) := by
  refine ⟨hwf, ?_, ?_⟩
  · intro k'
    simp only [hd, Content.set]
    by_cases h : k' = k
    · simp [h]
    · simp only [if_neg h]; exact hr.absent k'
  · intro k' e' es' h1 h2
    simp only [hd, Content.set] at h1 h2
    by_cases h : k' = k
    · rw [if_pos h] at h1 h2
      cases h1; cases h2; exact he
    · rw [if_neg h] at h1 h2
      exact hr.present k' e' es' h1 h2

theorem Refines.getD {b : Builder} {s : Content} (hr : Refines b s) (k : GridKey) :
    Holds ((SMap.find k b.data).getD []) ((s k).getD []) := by
  cases h : SMap.find k b.data with
  | none =>
    rw [(hr.absent k).1 h]
    intro rs z i
    simp only [Option.getD_none, List.not_mem_nil, false_and, exists_false, iff_false]
    exact has_nil rs z i
  | some e =>
    cases h' : s k with
    | none => rw [(hr.absent k).2 h'] at h; cases h
    | some es => exact hr.present k e es h h'

theorem Holds.extend {e : BuilderEntry} {es vs : List GridEntry} (h : Holds e es) :
    Holds (extendEntries e vs) (es ++ vs) := by
  intro rs z i
  rw [has_extendEntries, h rs z i]
  simp only [List.mem_append, or_and_right, exists_or]

theorem Holds.compact {e : BuilderEntry} {es : List GridEntry} (h : Holds e es) (relev : F64)
    (score id hash : ℕ) (tiles : List (ℕ × ℕ)) :
    Holds (compactEntry relev score id hash tiles e)
      (es ++ tileEntries relev score id hash tiles) := by
  intro rs z i
  rw [has_compactEntry, h rs z i]
  simp only [List.mem_append, or_and_right, exists_or]
  rfl

theorem renumber_spec {s : Content} {map : List ℕ} {k' : GridKey}
    (hinj : ∀ p q, map[p]? = some k'.phraseId → map[q]? = some k'.phraseId →
      (s ⟨p, k'.langSet⟩).isSome → (s ⟨q, k'.langSet⟩).isSome → p = q) (es : List GridEntry) :
    s.renumber map k' = some es ↔
      ∃ k, s k = some es ∧ newKey map k = some k' := by
  unfold Content.renumber
  constructor
  · intro h
    rw [List.findSome?_eq_some_iff] at h
    obtain ⟨l1, p, l2, _, hp, _⟩ := h
    by_cases hc : map[p]? = some k'.phraseId
    · rw [if_pos hc] at hp
      exact ⟨⟨p, k'.langSet⟩, hp, newKey_eq_some.2 ⟨hc, rfl⟩⟩
    · rw [if_neg hc] at hp; cases hp
  · rintro ⟨k, hk, hn⟩
    obtain ⟨e1, e2⟩ := newKey_eq_some.1 hn
    have hk2 : k = ⟨k.phraseId, k'.langSet⟩ := by rw [← e2]
    cases hf : (List.range map.length).findSome? (fun p =>
        if map[p]? = some k'.phraseId then s ⟨p, k'.langSet⟩ else none) with
    | none =>
      rw [List.findSome?_eq_none_iff] at hf
      have := hf k.phraseId (by
        rw [List.mem_range]; exact (List.getElem?_eq_some_iff.1 e1).1)
      rw [if_pos e1, ← hk2, hk] at this
      cases this
    | some es' =>
      rw [List.findSome?_eq_some_iff] at hf
      obtain ⟨l1, p, l2, _, hp, _⟩ := hf
      by_cases hc : map[p]? = some k'.phraseId
      · rw [if_pos hc] at hp
        have := hinj p k.phraseId hc e1 (by rw [hp]; rfl) (by rw [← hk2, hk]; rfl)
        rw [this, ← hk2, hk] at hp
        cases hp; rfl
      · rw [if_neg hc] at hp; cases hp

theorem Refines.call {b b' : Builder} {s : Content} (hr : Refines b s) {c : Call} (hc : c.Wf)
    (h : b.call c = some b') : Refines b' (s.call c) := by
  cases c with
  | insert k es =>
    simp only [Builder.call, Option.some.injEq] at h
    subst h
    refine hr.of_set (wf_insert hr.wf hc.1 hc.2) (e := extendEntries [] es) ?_ ?_
    · intro k'; refine (SMap.find_insert k k' _ _).trans ?_; congr
    · have := Holds.extend (e := []) (es := []) (vs := es) (by
        intro rs z i
        simp only [List.not_mem_nil, false_and, exists_false, iff_false]
        exact has_nil rs z i)
      simpa using this
  | append k es =>
    simp only [Builder.call, Option.some.injEq] at h
    subst h
    refine hr.of_set (wf_append hr.wf hc.1 hc.2)
      (e := extendEntries ((SMap.find k b.data).getD []) es) ?_ (hr.getD k).extend
    intro k'; refine (SMap.find_upsert k k' _ _ _).trans ?_; congr
  | compactAppend k relev score id hash tiles =>
    simp only [Builder.call, Option.some.injEq] at h
    subst h
    refine hr.of_set (wf_compactAppend hr.wf hc.1 relev hc.2.1 hc.2.2.2.1 tiles)
      (e := compactEntry relev score id hash tiles ((SMap.find k b.data).getD [])) ?_
      ((hr.getD k).compact relev score id hash tiles)
    intro k'; refine (SMap.find_upsert k k' _ _ _).trans ?_; congr
  | renumber map =>
    have hok : (b.renumber map).2 = .ok () ∧ b' = (b.renumber map).1 := by
      unfold Builder.call at h
      simp only at h
      cases hx : b.renumber map with
      | mk x y =>
        rw [hx] at h
        cases y with
        | error e => simp at h
        | ok u => simp only [Option.some.injEq] at h; exact ⟨rfl, h.symm⟩
    obtain ⟨hok, rfl⟩ := hok
    obtain ⟨h1, _, h3, h4⟩ := renumberLoop_ok b.data SMap.sorted_nil hok
    have hnil : ∀ k' (e : BuilderEntry), SMap.find k' (b.renumber map).1.data = some e ↔
        ∃ k, SMap.find k b.data = some e ∧ newKey map k = some k' := by
      intro k' e
      have := h4 k' e
      simp only [SMap.mem_iff_find hr.wf.sorted] at this
      rw [show SMap.find k' ([] : SMap GridKey BuilderEntry) = none from rfl] at this
      simp only [reduceCtorEq, false_or] at this
      exact this
    have hdist : ∀ k k₂ k', newKey map k = some k' → newKey map k₂ = some k' →
        (s k).isSome → (s k₂).isSome → k = k₂ := by
      intro k k₂ k' e1 e2 i1 i2
      by_contra hne
      have m : ∀ q, (s q).isSome → ∃ e, (q, e) ∈ b.data := by
        intro q hq
        cases hf : SMap.find q b.data with
        | none => rw [(hr.absent q).1 hf] at hq; cases hq
        | some e => exact ⟨e, (SMap.mem_iff_find hr.wf.sorted).2 hf⟩
      obtain ⟨x, hx⟩ := m k i1
      obtain ⟨y, hy⟩ := m k₂ i2
      rcases List.Pairwise.forall_of_forall_of_flip (l := b.data)
        (R := fun a b => a = b ∨ newKey map a.1 ≠ newKey map b.1) (fun a _ => Or.inl rfl)
        (h3.imp (fun h => Or.inr h)) (h3.imp (fun h => Or.inr h.symm)) hx hy with h | h
      · exact hne (congrArg Prod.fst h)
      · exact h (by simp only; rw [e1, e2])
    have hspec : ∀ k' es, s.renumber map k' = some es ↔
        ∃ k, s k = some es ∧ newKey map k = some k' := by
      intro k' es
      refine renumber_spec ?_ es
      intro p q hp hq ip iq
      have := hdist ⟨p, k'.langSet⟩ ⟨q, k'.langSet⟩ k' (newKey_eq_some.2 ⟨hp, rfl⟩)
        (newKey_eq_some.2 ⟨hq, rfl⟩) ip iq
      exact congrArg GridKey.phraseId this
    refine ⟨wf_renumber hr.wf hc hok, ?_, ?_⟩
    · intro k'
      constructor
      · intro hn
        cases hs : s.renumber map k' with
        | none => exact hs
        | some es =>
          obtain ⟨k, hk, hk'⟩ := (hspec k' es).1 hs
          cases hf : SMap.find k b.data with
          | none => rw [(hr.absent k).1 hf] at hk; cases hk
          | some e => rw [(hnil k' e).2 ⟨k, hf, hk'⟩] at hn; cases hn
      · intro hn
        cases hf : SMap.find k' (b.renumber map).1.data with
        | none => rfl
        | some e =>
          obtain ⟨k, hk, hk'⟩ := (hnil k' e).1 hf
          cases hs : s k with
          | none => rw [(hr.absent k).2 hs] at hk; cases hk
          | some es =>
            have := (hspec k' es).2 ⟨k, hs, hk'⟩
            simp only [Content.call] at hn
            rw [hn] at this; cases this
    · intro k' e es h1 h2
      obtain ⟨k, hk, hk'⟩ := (hnil k' e).1 h1
      obtain ⟨q, hq, hq'⟩ := (hspec k' es).1 h2
      cases hs : s k with
      | none => rw [(hr.absent k).2 hs] at hk; cases hk
      | some es' =>
        have : k = q := hdist k q k' hk' hq' (by rw [hs]; rfl) (by rw [hq]; rfl)
        subst this
        exact hr.present k e es hk hq
  | loadBounds bs =>
    simp only [Builder.call, Option.some.injEq] at h
    subst h
    exact ⟨⟨hr.wf.sorted, hr.wf.keys, hr.wf.entries, hc⟩, hr.absent, hr.present⟩

theorem Refines.runFrom {b b' : Builder} {s : Content} (hr : Refines b s) {cs : List Call}
    (hc : ∀ c ∈ cs, c.Wf) (h : b.runFrom cs = some b') : Refines b' (cs.foldl Content.call s) := by
  induction cs generalizing b s with
  | nil => simp only [Builder.runFrom, Option.some.injEq] at h; subst h; exact hr
  | cons c t ih =>
    unfold Builder.runFrom at h
    cases hb : b.call c with
    | none => rw [hb] at h; cases h
    | some b₁ =>
      rw [hb] at h
      exact ih (hr.call (hc c (by simp)) hb) (fun c hc' => hc c (by simp [hc'])) h

theorem refines_new : Refines Builder.new (fun _ => none) :=
  ⟨wf_new, by intro k; simp [Builder.new, SMap.find],
    by intro k e es h; simp [Builder.new, SMap.find] at h⟩

theorem refines_run {cs : List Call} (hc : ∀ c ∈ cs, c.Wf) {b : Builder}
    (h : Builder.run cs = some b) : Refines b (Content.run cs) :=
  refines_new.runFrom hc h

/-- The entries of the content of a run were written by some call. -/
theorem content_entries {cs : List Call} {k : GridKey} {es : List GridEntry}
    (h : Content.run cs k = some es) : ∀ v ∈ es, ∃ c ∈ cs, v ∈ c.entries := by
  have : ∀ (cs : List Call) (s : Content) (P : GridEntry → Prop),
      (∀ k es, s k = some es → ∀ v ∈ es, P v) → (∀ c ∈ cs, ∀ v ∈ c.entries, P v) →
      ∀ k es, cs.foldl Content.call s k = some es → ∀ v ∈ es, P v := by
    intro cs
    induction cs with
    | nil => intro s P h1 _; exact h1
    | cons c t ih =>
      intro s P h1 h2
      have hset : ∀ (q : GridKey) (l : List GridEntry), (∀ v ∈ l, P v) →
          ∀ k es, s.set q l k = some es → ∀ v ∈ es, P v := by
        intro q l hl k es hk
        unfold Content.set at hk
        split at hk
        · cases hk; exact hl
        · exact h1 k es hk
      have hget : ∀ q, ∀ v ∈ (s q).getD [], P v := by
        intro q v hv
        cases hq : s q with
        | none => rw [hq] at hv; simp at hv
        | some l => rw [hq] at hv; exact h1 q l hq v hv
      refine ih (s.call c) P ?_ (fun c hc => h2 c (by simp [hc]))
      have h2c := h2 c (by simp)
      cases c with
      | insert q l => exact hset q l h2c
      | append q l =>
        refine hset q _ ?_
        intro v hv
        rcases List.mem_append.1 hv with hv | hv
        · exact hget q v hv
        · exact h2c v hv
      | compactAppend q relev score id hash tiles =>
        refine hset q _ ?_
        intro v hv
        rcases List.mem_append.1 hv with hv | hv
        · exact hget q v hv
        · exact h2c v hv
      | renumber map =>
        intro k es hk v hv
        unfold Content.call Content.renumber at hk
        simp only at hk
        rw [List.findSome?_eq_some_iff] at hk
        obtain ⟨_, p, _, _, hp, _⟩ := hk
        split at hp
        · exact h1 _ es hp v hv
        · cases hp
      | loadBounds _ => exact h1
  exact this cs (fun _ => none) (fun v => ∃ c ∈ cs, v ∈ c.entries) (by simp)
    (fun c hc v hv => ⟨c, hc, hv⟩) k es h

theorem call_entries_wf {c : Call} (h : c.Wf) : ∀ v ∈ c.entries, v.Wf := by
  cases c with
  | insert k es => exact h.2
  | append k es => exact h.2
  | compactAppend k relev score id hash tiles =>
    intro v hv
    obtain ⟨t, ht, rfl⟩ := List.mem_map.1 hv
    exact ⟨h.2.1, (h.2.2.2.2 t ht).1, (h.2.2.2.2 t ht).2, h.2.2.1, h.2.2.2.1⟩
  | renumber _ => simp [Call.entries]
  | loadBounds _ => simp [Call.entries]

end Builder

/-! ### Reading an encoded entry -/

attribute [local irreducible] interleave idComp rsByte

theorem decode_encode {o : IterOrder} {e : BuilderEntry} {es : List GridEntry}
    (hw : EntryWf e) (hb : EntryBounds e) (hh : Builder.Holds e es)
    (hes : ∀ v ∈ es, v.Wf ∧ v.score ≤ 15) (hlen : (encodeValue o e).length < 2 ^ 32) :
    decodeValue (encodeValue o e) = some (readBack (es.map stored)) := by
  obtain ⟨rec, hrec, hshape⟩ := encodeValue_readsAs o e hb hlen
  rw [hrec.decodeValue, hshape]
  congr 1
  refine shapeEntries_normEntry hw ?_ ?_
  · intro rs z i h
    obtain ⟨v, hv, rfl, rfl, rfl⟩ := (hh rs z i).1 h
    refine ⟨?_, interleave_lt _ _⟩
    rw [rsByte_eq (by have := (hes v hv).2; omega)]
    have := relevToInt_lt v.relev
    have := (hes v hv).2
    omega
  · intro g
    constructor
    · intro hg
      obtain ⟨v, hv, rfl⟩ := List.mem_map.1 hg
      exact ⟨_, _, _, (hh _ _ _).2 ⟨v, hv, rfl, rfl, rfl⟩,
        (entryOf_stored (hes v hv).1 (hes v hv).2).symm⟩
    · rintro ⟨rs, z, i, h, rfl⟩
      obtain ⟨v, hv, rfl, rfl, rfl⟩ := (hh rs z i).1 h
      exact List.mem_map.2 ⟨v, hv, (entryOf_stored (hes v hv).1 (hes v hv).2).symm⟩

end Carmen
