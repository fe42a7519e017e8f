import Verif.Spec.Rename
import Verif.Props.Frame

/-!
# C87: the numbers of phrases are only names
-/

namespace Carmen
open Format Spec Builder

/-! ### Calls before and after `renumber` -/

theorem renumber_eq {b b' : Builder} (hb : b.Wf) (hs : SMap.Sorted b'.data) {map : List ℕ}
    (hbounds : b'.bounds = b.bounds) (h : (b.renumber map).2 = .ok ())
    (hf : ∀ q l e, SMap.find ⟨q, l⟩ b'.data = some e ↔
      ∃ p, SMap.find ⟨p, l⟩ b.data = some e ∧ map[p]? = some q) : b.renumber map = (b', .ok ()) := by
  obtain ⟨h1, _, _, _⟩ := renumberLoop_ok b.data SMap.sorted_nil h
  have h2 : (b.renumber map).1.data = b'.data := by
    refine SMap.ext_find h1 hs fun k => Option.ext fun e => ?_
    rw [hf k.phraseId k.langSet e]
    exact C09_renumber_moves b hb map h k.phraseId k.langSet e
  have h3 : (b.renumber map).1 = b' := by
    obtain ⟨d, bs⟩ := b'
    simp only at hbounds h2
    subst hbounds h2
    rfl
  rw [← h3, ← h]

theorem sorted_renumber {b : Builder} {map : List ℕ} (h : (b.renumber map).2 = .ok ()) :
    SMap.Sorted (b.renumber map).1.data :=
  (renumberLoop_ok b.data SMap.sorted_nil h).1

/-- **C87**: renumbering twice is renumbering once, by the maps one after the other. -/
theorem C87_twice (b : Builder) (hb : b.Wf) (map map' both : List ℕ) (hm : ∀ q ∈ map, q < 2 ^ 32)
    (hboth : ∀ r ∈ b.data, both[r.1.phraseId]? = map[r.1.phraseId]?.bind (map'[·]?))
    (h : (b.renumber map).2 = .ok ()) :
    (((b.renumber map).1.renumber map').2 = .ok () ↔ (b.renumber both).2 = .ok ()) ∧
    ((b.renumber both).2 = .ok () → (b.renumber map).1.renumber map' = b.renumber both) := by
  have hb1 := wf_renumber hb hm h
  have hmv := C09_renumber_moves b hb map h
  obtain ⟨hlen, hinj⟩ := (C09_renumber_succeeds_iff b hb map).1 h
  -- where the rows went
  have hrow : ∀ r ∈ b.data, ∃ q, map[r.1.phraseId]? = some q ∧
      (⟨q, r.1.langSet⟩, r.2) ∈ (b.renumber map).1.data ∧ both[r.1.phraseId]? = map'[q]? := by
    intro r hr
    obtain ⟨q, hq⟩ : ∃ q, map[r.1.phraseId]? = some q := ⟨_, List.getElem?_eq_getElem (hlen r hr)⟩
    refine ⟨q, hq, ?_, by rw [hboth r hr, hq]; rfl⟩
    exact (SMap.mem_iff_find hb1.sorted).2 ((hmv q r.1.langSet r.2).2
      ⟨r.1.phraseId, (SMap.mem_iff_find hb.sorted).1 hr, hq⟩)
  have hback : ∀ r ∈ (b.renumber map).1.data, ∃ p, map[p]? = some r.1.phraseId ∧
      ((⟨p, r.1.langSet⟩ : GridKey), r.2) ∈ b.data ∧ both[p]? = map'[r.1.phraseId]? := by
    intro r hr
    obtain ⟨p, h1, h2⟩ := (hmv r.1.phraseId r.1.langSet r.2).1
      ((SMap.mem_iff_find hb1.sorted).1 hr)
    have h3 : ((⟨p, r.1.langSet⟩ : GridKey), r.2) ∈ b.data := (SMap.mem_iff_find hb.sorted).2 h1
    exact ⟨p, h2, h3, by have := hboth _ h3; rw [this]; simp only; rw [h2]; rfl⟩
  have hiff : (((b.renumber map).1.renumber map').2 = .ok () ↔ (b.renumber both).2 = .ok ()) := by
    rw [C09_renumber_succeeds_iff _ hb1, C09_renumber_succeeds_iff _ hb]
    constructor
    · rintro ⟨h1, h2⟩
      refine ⟨?_, ?_⟩
      · intro r hr
        obtain ⟨q, hq, hm1, hbo⟩ := hrow r hr
        have := h1 _ hm1
        rw [List.getElem?_eq_getElem this] at hbo
        exact (List.getElem?_eq_some_iff.1 hbo).1
      · intro r hr r' hr' he hl
        obtain ⟨q, hq, hm1, hbo⟩ := hrow r hr
        obtain ⟨q', hq', hm1', hbo'⟩ := hrow r' hr'
        have := h2 _ hm1 _ hm1' (by simp only; rw [← hbo, ← hbo', he]) hl
        have hqq : q = q' := congrArg GridKey.phraseId this
        exact hinj r hr r' hr' (by rw [hq, hq', hqq]) hl
    · rintro ⟨h1, h2⟩
      refine ⟨?_, ?_⟩
      · intro r hr
        obtain ⟨p, hp, hm1, hbo⟩ := hback r hr
        have := h1 _ hm1
        rw [List.getElem?_eq_getElem this] at hbo
        exact (List.getElem?_eq_some_iff.1 hbo.symm).1
      · intro r hr r' hr' he hl
        obtain ⟨p, hp, hm1, hbo⟩ := hback r hr
        obtain ⟨p', hp', hm1', hbo'⟩ := hback r' hr'
        have := h2 _ hm1 _ hm1' (by simp only; rw [hbo, hbo', he]) hl
        have hpp : p = p' := congrArg GridKey.phraseId this
        rw [hpp, hp'] at hp
        have h4 : r'.1.phraseId = r.1.phraseId := Option.some.inj hp
        obtain ⟨⟨a, b⟩, c⟩ := r
        obtain ⟨⟨a', b'⟩, c'⟩ := r'
        simp only at h4 hl ⊢
        rw [h4, hl]
  refine ⟨hiff, fun h2 => ?_⟩
  have h1 := hiff.2 h2
  have e2 := C09_renumber_moves b hb both h2
  have e1 := C09_renumber_moves _ hb1 map' h1
  refine (renumber_eq hb1 (sorted_renumber h2) rfl h1 fun q l e => ?_).trans ?_
  · rw [e2]
    constructor
    · rintro ⟨p, hp, hq⟩
      obtain ⟨x, hx, hm1, hbo⟩ := hrow _ ((SMap.mem_iff_find hb.sorted).2 hp)
      exact ⟨x, (SMap.mem_iff_find hb1.sorted).1 hm1, by rw [← hbo]; exact hq⟩
    · rintro ⟨x, hx, hq⟩
      obtain ⟨p, hp, hm1, hbo⟩ := hback _ ((SMap.mem_iff_find hb1.sorted).2 hx)
      exact ⟨p, (SMap.mem_iff_find hb.sorted).1 hm1, by rw [hbo]; exact hq⟩
  · rw [← h2]

/-- **C87**: renumbering back gives the builder back. -/
theorem C87_back (b : Builder) (hb : b.Wf) (map map' : List ℕ) (hm : ∀ q ∈ map, q < 2 ^ 32)
    (hback : ∀ r ∈ b.data, map[r.1.phraseId]?.bind (map'[·]?) = some r.1.phraseId)
    (h : (b.renumber map).2 = .ok ()) : (b.renumber map).1.renumber map' = (b, .ok ()) := by
  have hb1 := wf_renumber hb hm h
  have hmv := C09_renumber_moves b hb map h
  have hrow : ∀ r ∈ (b.renumber map).1.data, ∃ p, map[p]? = some r.1.phraseId ∧
      ((⟨p, r.1.langSet⟩ : GridKey), r.2) ∈ b.data ∧ map'[r.1.phraseId]? = some p := by
    intro r hr
    obtain ⟨p, h1, h2⟩ := (hmv r.1.phraseId r.1.langSet r.2).1
      ((SMap.mem_iff_find hb1.sorted).1 hr)
    have h3 : ((⟨p, r.1.langSet⟩ : GridKey), r.2) ∈ b.data := (SMap.mem_iff_find hb.sorted).2 h1
    refine ⟨p, h2, h3, ?_⟩
    have := hback _ h3
    simp only at this
    rwa [h2] at this
  have hok : ((b.renumber map).1.renumber map').2 = .ok () := by
    rw [C09_renumber_succeeds_iff _ hb1]
    refine ⟨?_, ?_⟩
    · intro r hr
      obtain ⟨p, _, _, h1⟩ := hrow r hr
      exact (List.getElem?_eq_some_iff.1 h1).1
    · intro r hr r' hr' he hl
      obtain ⟨p, hp, _, h1⟩ := hrow r hr
      obtain ⟨p', hp', _, h1'⟩ := hrow r' hr'
      rw [h1, h1'] at he
      rw [Option.some.inj he, hp'] at hp
      have h4 : r'.1.phraseId = r.1.phraseId := Option.some.inj hp
      obtain ⟨⟨a, b⟩, c⟩ := r
      obtain ⟨⟨a', b'⟩, c'⟩ := r'
      simp only at h4 hl ⊢
      rw [h4, hl]
  refine renumber_eq hb1 hb.sorted rfl hok fun q l e => ?_
  constructor
  · intro hq
    have hmem : ((⟨q, l⟩ : GridKey), e) ∈ b.data := (SMap.mem_iff_find hb.sorted).2 hq
    have := hback _ hmem
    simp only at this
    obtain ⟨x, hx, hx'⟩ := Option.bind_eq_some_iff.1 this
    exact ⟨x, (hmv x l e).2 ⟨q, hq, hx⟩, hx'⟩
  · rintro ⟨x, hx, hq⟩
    obtain ⟨p, _, h3, h4⟩ := hrow _ ((SMap.mem_iff_find hb1.sorted).2 hx)
    simp only at h4 h3
    rw [hq] at h4
    cases h4
    exact (SMap.mem_iff_find hb.sorted).1 h3

/-- Writing to a key before `renumber` is writing to the key it is sent to after it. -/
theorem renumber_upsert {b : Builder} (hb : b.Wf) {k : GridKey} {f : BuilderEntry → BuilderEntry}
    {map : List ℕ} (hb1 : ({ b with data := SMap.upsert k [] f b.data } : Builder).Wf)
    (h : (({ b with data := SMap.upsert k [] f b.data } : Builder).renumber map).2 = .ok ()) :
    (b.renumber map).2 = .ok () ∧
    ({ b with data := SMap.upsert k [] f b.data } : Builder).renumber map =
      (⟨SMap.upsert ⟨renamed map k.phraseId, k.langSet⟩ [] f (b.renumber map).1.data, b.bounds⟩,
        .ok ()) := by
  set b1 : Builder := { b with data := SMap.upsert k [] f b.data } with hb1def
  obtain ⟨hlen, hinj⟩ := (C09_renumber_succeeds_iff b1 hb1 map).1 h
  have hfind : ∀ k', SMap.find k' b1.data =
      if k' = k then some (f ((SMap.find k b.data).getD [])) else SMap.find k' b.data := by
    intro k'
    refine (SMap.find_upsert k k' [] f b.data).trans ?_
    congr
  -- keys of `b` are keys of `b1`
  have hkeys : ∀ r ∈ b.data, ∃ e, (r.1, e) ∈ b1.data := by
    intro r hr
    have h1 := (SMap.mem_iff_find hb.sorted).1 hr
    by_cases hk : r.1 = k
    · exact ⟨_, (SMap.mem_iff_find hb1.sorted).2 (by rw [hfind, if_pos hk])⟩
    · exact ⟨r.2, (SMap.mem_iff_find hb1.sorted).2 (by rw [hfind, if_neg hk]; exact h1)⟩
  have hk1 : ∃ e, (k, e) ∈ b1.data :=
    ⟨_, (SMap.mem_iff_find hb1.sorted).2 (by rw [hfind, if_pos rfl])⟩
  have hok : (b.renumber map).2 = .ok () := by
    rw [C09_renumber_succeeds_iff b hb]
    refine ⟨?_, ?_⟩
    · intro r hr
      obtain ⟨e, he⟩ := hkeys r hr
      exact hlen (r.1, e) he
    · intro r hr r' hr' he hl
      obtain ⟨e, h1⟩ := hkeys r hr
      obtain ⟨e', h1'⟩ := hkeys r' hr'
      exact hinj (r.1, e) h1 (r'.1, e') h1' he hl
  refine ⟨hok, ?_⟩
  obtain ⟨ek, hek⟩ := hk1
  have hn : map[k.phraseId]? = some (renamed map k.phraseId) := by
    have := hlen _ hek
    simp only at this
    unfold renamed
    rw [List.getElem?_eq_getElem this]
    rfl
  have hmv := C09_renumber_moves b hb map hok
  -- what lands on the new key
  have hland : SMap.find ⟨renamed map k.phraseId, k.langSet⟩ (b.renumber map).1.data =
      SMap.find k b.data := by
    refine Option.ext fun e => ?_
    rw [hmv]
    constructor
    · rintro ⟨p, hp, hq⟩
      obtain ⟨e', he'⟩ := hkeys _ ((SMap.mem_iff_find hb.sorted).2 hp)
      have := hinj _ he' _ hek (by simp only; rw [hq, hn]) rfl
      simp only at this
      rw [this] at hp
      exact hp
    · intro he
      exact ⟨k.phraseId, he, hn⟩
  refine renumber_eq hb1 (SMap.sorted_upsert (sorted_renumber hok)) rfl h fun q l e => ?_
  rw [SMap.find_upsert, hland]
  by_cases hq : (⟨q, l⟩ : GridKey) = ⟨renamed map k.phraseId, k.langSet⟩
  · rw [if_pos hq]
    have hql : q = renamed map k.phraseId ∧ l = k.langSet := by
      injection hq with h1 h2
      exact ⟨h1, h2⟩
    obtain ⟨rfl, rfl⟩ := hql
    constructor
    · intro he
      exact ⟨k.phraseId, by rw [hfind, if_pos rfl]; exact he, hn⟩
    · rintro ⟨p, hp, hq⟩
      have := hinj _ ((SMap.mem_iff_find hb1.sorted).2 hp) _ hek (by simp only; rw [hq, hn]) rfl
      simp only at this
      rw [hfind, if_pos this] at hp
      exact hp
  · rw [if_neg hq, hmv]
    have hne : ∀ p, map[p]? = some q → (⟨p, l⟩ : GridKey) ≠ k := by
      rintro p hp rfl
      simp only at hn hq
      rw [hp] at hn
      exact hq (by rw [← Option.some.inj hn])
    constructor
    · rintro ⟨p, hp, hpq⟩
      exact ⟨p, by rw [hfind, if_neg (hne p hpq)]; exact hp, hpq⟩
    · rintro ⟨p, hp, hpq⟩
      rw [hfind, if_neg (hne p hpq)] at hp
      exact ⟨p, hp, hpq⟩

theorem runFrom_append (b : Builder) (cs cs' : List Call) :
    b.runFrom (cs ++ cs') = (b.runFrom cs).bind (fun b' => b'.runFrom cs') := by
  induction cs generalizing b with
  | nil => rfl
  | cons c t ih =>
    simp only [List.cons_append, Builder.runFrom]
    cases b.call c with
    | none => rfl
    | some b' => exact ih b'

/-- **C87**: `renumber` after any calls is making the same calls with the new numbers from the
start. -/
theorem C87_as_if_written (cs : List Call) (hc : ∀ c ∈ cs, c.Wf) (hw : ∀ c ∈ cs, NotRenumber c)
    (map : List ℕ) (b : Builder) (h : Builder.run (cs ++ [.renumber map]) = some b) :
    Builder.run (cs.map (renamedCall map)) = some b := by
  have key : ∀ cs : List Call, (∀ c ∈ cs, c.Wf) → (∀ c ∈ cs, NotRenumber c) → ∀ b,
      Builder.run cs = some b → (b.renumber map).2 = .ok () →
      Builder.run (cs.map (renamedCall map)) = some (b.renumber map).1 := by
    intro cs
    induction cs using List.reverseRecOn with
    | nil =>
      intro _ _ b hb _
      cases hb
      rfl
    | append_singleton t c ih =>
      intro hc hw b hb hok
      unfold Builder.run at hb
      rw [runFrom_append] at hb
      obtain ⟨b0, hb0, hb1⟩ := Option.bind_eq_some_iff.1 hb
      have hct : ∀ c ∈ t, c.Wf := fun x hx => hc x (by simp [hx])
      have hwf0 := (refines_run hct hb0).wf
      have hwf : b.Wf := (refines_run hc (b := b) (by unfold Builder.run; rw [runFrom_append]; exact hb)).wf
      have hcall : b0.call c = some b := by
        simp only [Builder.runFrom] at hb1
        cases hx : b0.call c with
        | none => rw [hx] at hb1; cases hb1
        | some y => rw [hx] at hb1; exact hb1
      have ih' := ih hct (fun x hx => hw x (by simp [hx])) b0 hb0
      have hwc := hw c (by simp)
      have fin : ∀ b', (b0.renumber map).2 = .ok () →
          (b0.renumber map).1.call (renamedCall map c) = some b' →
          Builder.run ((t ++ [c]).map (renamedCall map)) = some b' := by
        intro b' h0 hb'
        unfold Builder.run
        rw [List.map_append, runFrom_append]
        have := ih' h0
        unfold Builder.run at this
        rw [this]
        simp only [Option.bind_some, List.map_cons, List.map_nil, Builder.runFrom, hb']
      cases c with
      | insert k es =>
        cases hcall
        obtain ⟨h0, h1⟩ := renumber_upsert (f := fun _ => extendEntries [] es) hwf0 hwf hok
        refine fin _ h0 ?_
        have h2 := congrArg Prod.fst h1
        exact congrArg some h2.symm
      | append k es =>
        cases hcall
        obtain ⟨h0, h1⟩ := renumber_upsert (f := fun e => extendEntries e es) hwf0 hwf hok
        refine fin _ h0 ?_
        have h2 := congrArg Prod.fst h1
        exact congrArg some h2.symm
      | compactAppend k relev score id hash tiles =>
        cases hcall
        obtain ⟨h0, h1⟩ := renumber_upsert hwf0 hwf hok
        refine fin _ h0 ?_
        have h2 := congrArg Prod.fst h1
        exact congrArg some h2.symm
      | renumber ids => exact absurd hwc (by simp [NotRenumber])
      | loadBounds bounds =>
        cases hcall
        exact fin _ hok rfl
  unfold Builder.run at h
  rw [runFrom_append] at h
  obtain ⟨b0, hb0, hb1⟩ := Option.bind_eq_some_iff.1 h
  simp only [Builder.runFrom, Builder.call] at hb1
  cases hx : b0.renumber map with
  | mk b2 r =>
    rw [hx] at hb1
    cases r with
    | error e => cases hb1
    | ok u =>
      have := key cs hc hw b0 hb0 (by rw [hx])
      rw [this, hx]
      exact hb1

/-! ### Queries -/

variable {cs cs' : List Call} {o o' : IterOrder} {b b' : Builder} {db db' : SMap Bytes Bytes}

theorem append_lt_append_left {a s t : Bytes} : a ++ s < a ++ t ↔ s < t := by
  induction a with
  | nil => rfl
  | cons x l ih =>
    rw [List.cons_append, List.cons_append, cons_lt_cons_iff', ih]
    simp

/-- The order of the languages of a phrase does not depend on its number. -/
theorem dbKey_lt_renamed {m : TypeMarker} {p l l' : ℕ} (q : ℕ)
    (h : (⟨p, l⟩ : GridKey).dbKey m < (⟨p, l'⟩ : GridKey).dbKey m) :
    (⟨q, l⟩ : GridKey).dbKey m < (⟨q, l'⟩ : GridKey).dbKey m := by
  unfold GridKey.dbKey at h ⊢
  rw [cons_lt_cons_iff'] at h ⊢
  simp only [append_lt_append_left] at h ⊢
  exact h

/-- The row under the new number of its phrase. -/
def renamedRow (f : ℕ → ℕ) (r : Bytes × Bytes) : Bytes × Bytes :=
  match Store.decodeKey r.1 with
  | some k => ((⟨f k.phraseId, k.langSet⟩ : GridKey).dbKey .singlePhrase, r.2)
  | none => r

theorem renamedRow_dbKey (f : ℕ → ℕ) {k : GridKey} (hk : k.Wf) (v : Bytes) :
    renamedRow f (k.dbKey .singlePhrase, v) =
      ((⟨f k.phraseId, k.langSet⟩ : GridKey).dbKey .singlePhrase, v) := by
  unfold renamedRow
  rw [decodeKey_dbKey _ hk]

theorem Made.holds (h : Made cs o b db) {k : GridKey} {e : BuilderEntry} (he : (k, e) ∈ b.data) :
    HasPhrase cs k.phraseId := by
  obtain ⟨es, h1, _⟩ := data_content (refines_run h.wf h.run) he
  exact ⟨k.langSet, by rw [h1]; simp⟩

/-- The phrase rows of a range. -/
theorem Made.mem_phrase_rows (h : Made cs o b db) (hsmall : SmallRecords db) {st en : ℕ}
    {r : Bytes × Bytes} : r ∈ db.filter (inRange .singlePhrase st en) ↔
      ∃ k e, (k, e) ∈ b.data ∧ k.Wf ∧ st ≤ k.phraseId ∧ k.phraseId < en ∧
        r = (k.dbKey .singlePhrase, encodeValue o e) := by
  have hb := (refines_run h.wf h.run).wf
  rw [List.mem_filter]
  constructor
  · rintro ⟨hr, hin⟩
    rcases laid_row (h.laidOut hsmall) hr with ⟨m, k, v, _, hk, rfl, _, _⟩ | hbk
    · obtain ⟨rfl, h1, h2⟩ := (inRange_dbKey hk _).1 hin
      have hf := (SMap.mem_iff_find (finish_sorted h.fin)).1 hr
      rw [find_finish hb h.fin hk] at hf
      obtain ⟨e, he, rfl⟩ := Option.map_eq_some_iff.1 hf
      exact ⟨k, e, (SMap.mem_iff_find hb.sorted).2 he, hk, h1, h2, rfl⟩
    · unfold inRange at hin
      rw [hbk, matchesKey_bounds] at hin
      simp at hin
  · rintro ⟨k, e, he, hk, h1, h2, rfl⟩
    refine ⟨(SMap.mem_iff_find (finish_sorted h.fin)).2 ?_, (inRange_dbKey hk _).2 ⟨rfl, h1, h2⟩⟩
    rw [find_finish hb h.fin hk, (SMap.mem_iff_find hb.sorted).1 he]
    rfl

theorem Made.renamed_rows (h : Made cs o b db) (h' : Made cs' o' b' db') (hsmall : SmallRecords db)
    (hsmall' : SmallRecords db') {f : ℕ → ℕ} {st en st' en' : ℕ}
    (hs : SameRenamed f st en st' en' cs cs') :
    (db.filter (inRange .singlePhrase st en)).map (renamedRow f) =
      db'.filter (inRange .singlePhrase st' en') := by
  have hr := refines_run h.wf h.run
  have hr' := refines_run h'.wf h'.run
  have hb := hr.wf
  have hb' := hr'.wf
  -- what is under the new key
  have hto : ∀ k e, (k, e) ∈ b.data → st ≤ k.phraseId → k.phraseId < en →
      ∃ e', ((⟨f k.phraseId, k.langSet⟩ : GridKey), e') ∈ b'.data ∧ SameEntry e e' := by
    intro k e he h1 h2
    obtain ⟨es, h3, h4⟩ := data_content hr he
    obtain ⟨h5, h6⟩ := hs.same k.phraseId k.langSet h1 h2 (h.holds he)
    cases hes' : Content.run cs' ⟨f k.phraseId, k.langSet⟩ with
    | none =>
      have := h5.2 hes'
      rw [show (⟨k.phraseId, k.langSet⟩ : GridKey) = k from rfl, h3] at this
      cases this
    | some es' =>
      obtain ⟨e', he', h7⟩ := content_find hr' hes'
      refine ⟨e', he', (hb.entries _ he).1, (hb'.entries _ he').1,
        ne_run h.wf h.nonEmpty h.run _ he, ne_run h'.wf h'.nonEmpty h'.run _ he', ?_⟩
      intro rs z i
      rw [h4 rs z i, h7 rs z i]
      simp only [h6 es es' h3 hes']
  refine smap_eq_of_mem ?_ ((finish_sorted h'.fin).filter _) ?_
  · unfold SMap.Sorted
    rw [List.pairwise_map]
    refine List.Pairwise.imp_of_mem ?_ ((finish_sorted h.fin).filter (inRange .singlePhrase st en))
    intro r r' hr1 hr2 hlt
    obtain ⟨k, e, he, hk, h1, h2, rfl⟩ := (h.mem_phrase_rows hsmall).1 hr1
    obtain ⟨k', e', he', hk', h1', h2', rfl⟩ := (h.mem_phrase_rows hsmall).1 hr2
    rw [renamedRow_dbKey f hk, renamedRow_dbKey f hk']
    simp only at hlt ⊢
    obtain ⟨d, hd, _⟩ := hto k e he h1 h2
    obtain ⟨d', hd', _⟩ := hto k' e' he' h1' h2'
    rcases lt_or_eq_of_le (phrase_le_of_dbKey_lt hk hk' hlt) with hp | hp
    · exact dbKey_lt_of_phrase_lt _ (hb'.keys _ hd) (hb'.keys _ hd')
        (hs.order _ _ h1 hp h2' (h.holds he) (h.holds he'))
    · obtain ⟨p, l⟩ := k
      obtain ⟨p', l'⟩ := k'
      simp only at hp
      subst hp
      exact dbKey_lt_renamed _ hlt
  · intro r
    rw [List.mem_map, h'.mem_phrase_rows hsmall']
    constructor
    · rintro ⟨r, hr1, rfl⟩
      obtain ⟨k, e, he, hk, h1, h2, rfl⟩ := (h.mem_phrase_rows hsmall).1 hr1
      obtain ⟨e', he', hse⟩ := hto k e he h1 h2
      obtain ⟨h3, h4⟩ := hs.within k.phraseId h1 h2 (h.holds he)
      exact ⟨_, e', he', hb'.keys _ he', h3, h4, by rw [renamedRow_dbKey f hk, hse.encode o o']⟩
    · rintro ⟨k', e', he', hk', h1', h2', rfl⟩
      obtain ⟨p, h1, h2, hp, hq⟩ := hs.others k'.phraseId h1' h2' (h'.holds he')
      obtain ⟨es', h3, _⟩ := data_content hr' he'
      have hsome : Content.run cs ⟨p, k'.langSet⟩ ≠ none := by
        intro hn
        have := (hs.same p k'.langSet h1 h2 hp).1.1 hn
        rw [hq, show (⟨k'.phraseId, k'.langSet⟩ : GridKey) = k' from rfl, h3] at this
        cases this
      obtain ⟨es, hes⟩ := Option.ne_none_iff_exists'.1 hsome
      obtain ⟨e, he, _⟩ := content_find hr hes
      refine ⟨((⟨p, k'.langSet⟩ : GridKey).dbKey .singlePhrase, encodeValue o e),
        (h.mem_phrase_rows hsmall).2 ⟨_, e, he, hb.keys _ he, h1, h2, rfl⟩, ?_⟩
      obtain ⟨e₂, he₂, hse⟩ := hto _ e he h1 h2
      rw [renamedRow_dbKey f (hb.keys _ he), hse.encode o o']
      simp only at he₂ ⊢
      rw [hq] at he₂ ⊢
      have h4 := (SMap.mem_iff_find hb'.sorted).1 he₂
      have h5 := (SMap.mem_iff_find hb'.sorted).1 he'
      rw [show (⟨k'.phraseId, k'.langSet⟩ : GridKey) = k' from rfl] at h4 ⊢
      rw [h5] at h4
      rw [Option.some.inj h4]

theorem rowElement_renamed {M : KMerger} {chk : Bool} {s s' : Store} (hrad : s.radius = s'.radius)
    {ph ph' : MatchPhrase} {lang : ℕ} {opts : MatchOpts} {k k' : GridKey} (hk : k.Wf) (hk' : k'.Wf)
    (hl : k.langSet = k'.langSet) (v : Bytes) :
    s.rowElement M chk ⟨ph, lang⟩ opts (k.dbKey .singlePhrase, v) =
      s'.rowElement M chk ⟨ph', lang⟩ opts (k'.dbKey .singlePhrase, v) := by
  unfold Store.rowElement
  simp only [matchesLanguage_dbKey _ _ hk, matchesLanguage_dbKey _ _ hk', hl, hrad]

theorem fillQueue_renamed {M : KMerger} {H : Heap QueueElement.key} {chk : Bool} {s s' : Store}
    (hrad : s.radius = s'.radius) {ph ph' : MatchPhrase} {lang : ℕ} {opts : MatchOpts} {n : ℕ}
    {f : ℕ → ℕ} (rows : List (Bytes × Bytes))
    (hrows : ∀ r ∈ rows, ∃ (k : GridKey) (v : Bytes), k.Wf ∧
      (⟨f k.phraseId, k.langSet⟩ : GridKey).Wf ∧ r = (k.dbKey .singlePhrase, v)) : ∀ q,
    Store.fillQueue M H chk s ⟨ph, lang⟩ opts n q rows =
      Store.fillQueue M H chk s' ⟨ph', lang⟩ opts n q (rows.map (renamedRow f)) := by
  induction rows with
  | nil => intro q; rfl
  | cons r t ih =>
    intro q
    obtain ⟨k, v, hk, hk', rfl⟩ := hrows _ List.mem_cons_self
    have ih := ih fun r hr => hrows r (List.mem_cons_of_mem _ hr)
    rw [List.map_cons, renamedRow_dbKey f hk]
    unfold Store.fillQueue
    rw [rowElement_renamed hrad hk hk' rfl v (ph' := ph')]
    simp only [ih]

theorem Made.query_renamed (h : Made cs o b db) (h' : Made cs' o' b' db')
    (hsmall : SmallRecords db) (hsmall' : SmallRecords db') {f : ℕ → ℕ} {st en st' en' : ℕ}
    (hs : SameRenamed f st en st' en' cs cs') (hst : st < 2 ^ 32) (hst' : st' < 2 ^ 32)
    {s s' : Store} (hdb : s.db = db) (hdb' : s'.db = db') (hrad : s.radius = s'.radius)
    {ph ph' : MatchPhrase} {chk : Bool} (hp : s.fetchPlan chk ph = some (st, en, .singlePhrase))
    (hp' : s'.fetchPlan chk ph' = some (st', en', .singlePhrase)) (lang : ℕ) (M : KMerger)
    (H : Heap QueueElement.key) (opts : MatchOpts) (n : ℕ) :
    s.getMatching M H chk ⟨ph, lang⟩ opts n = s'.getMatching M H chk ⟨ph', lang⟩ opts n := by
  have hb' := (refines_run h'.wf h'.run).wf
  unfold Store.getMatching
  rw [queryRows_eq (h.laidOut hsmall) hdb hp hst, queryRows_eq (h'.laidOut hsmall') hdb' hp' hst',
    ← h.renamed_rows h' hsmall hsmall' hs]
  simp only [Option.bind_eq_bind, Option.bind_some]
  rw [fillQueue_renamed hrad (ph' := ph') (f := f)]
  intro r hr
  obtain ⟨k, e, he, hk, h1, h2, rfl⟩ := (h.mem_phrase_rows hsmall).1 hr
  refine ⟨k, _, hk, ?_, rfl⟩
  have hmem : renamedRow f (k.dbKey .singlePhrase, encodeValue o e) ∈
      db'.filter (inRange .singlePhrase st' en') := by
    rw [← h.renamed_rows h' hsmall hsmall' hs]
    exact List.mem_map_of_mem hr
  obtain ⟨es, h3, _⟩ := data_content (refines_run h.wf h.run) he
  have h4 := (hs.same k.phraseId k.langSet h1 h2 (h.holds he)).1
  cases hes' : Content.run cs' ⟨f k.phraseId, k.langSet⟩ with
  | none =>
    have := h4.2 hes'
    rw [show (⟨k.phraseId, k.langSet⟩ : GridKey) = k from rfl, h3] at this
    cases this
  | some es' =>
    obtain ⟨e', he', _⟩ := content_find (refines_run h'.wf h'.run) hes'
    exact hb'.keys _ he'

/-- **C87**: a range of phrases, read phrase by phrase, is answered alike whatever the phrases in it
are called, as long as they come in the same order. -/
theorem C87_range (h : Made cs o b db) (h' : Made cs' o' b' db') (hsmall : SmallRecords db)
    (hsmall' : SmallRecords db') (f : ℕ → ℕ) (st en st' en' lang : ℕ) (hst : st < 2 ^ 32)
    (hst' : st' < 2 ^ 32) (hs : SameRenamed f st en st' en' cs cs')
    (hnot : ¬ (st ∈ lastBounds cs ∧ en ∈ lastBounds cs))
    (hnot' : ¬ (st' ∈ lastBounds cs' ∧ en' ∈ lastBounds cs'))
    (M : KMerger) (H : Heap QueueElement.key)
    (chk : Bool) (opts : MatchOpts) (n : ℕ) (zoom zoom' typeId typeId' : ℕ) (radius : F64)
    (bboxes bboxes' : List BBox) (maxScore maxScore' : F64) :
    (Store.openWith db zoom typeId radius bboxes maxScore).getMatching M H chk ⟨.range st en, lang⟩
        opts n =
      (Store.openWith db' zoom' typeId' radius bboxes' maxScore').getMatching M H chk
        ⟨.range st' en', lang⟩ opts n := by
  have hplan : ∀ (s : Store) (st en : ℕ), ¬ (st ∈ s.bounds ∧ en ∈ s.bounds) →
      s.fetchPlan chk (.range st en) = some (st, en, .singlePhrase) := fun s st en hn => if_neg hn
  exact h.query_renamed h' hsmall hsmall' hs hst hst' (s := Store.openWith db ..)
    (s' := Store.openWith db' ..) rfl rfl rfl (hplan _ _ _ (by rw [h.opened_bounds]; exact hnot))
    (hplan _ _ _ (by rw [h'.opened_bounds]; exact hnot')) lang M H opts n

/-- **C87**: a phrase is answered alike whatever it is called. -/
theorem C87_exact (h : Made cs o b db) (h' : Made cs' o' b' db') (hsmall : SmallRecords db)
    (hsmall' : SmallRecords db') (id id' lang : ℕ) (hid : id + 1 < 2 ^ 32) (hid' : id' + 1 < 2 ^ 32)
    (hsame : ∀ l, (Content.run cs ⟨id, l⟩ = none ↔ Content.run cs' ⟨id', l⟩ = none) ∧
      ∀ es es', Content.run cs ⟨id, l⟩ = some es → Content.run cs' ⟨id', l⟩ = some es' →
        ∀ e, e ∈ es ↔ e ∈ es')
    (M : KMerger) (H : Heap QueueElement.key)
    (chk : Bool) (opts : MatchOpts) (n : ℕ) (zoom zoom' typeId typeId' : ℕ) (radius : F64)
    (bboxes bboxes' : List BBox) (maxScore maxScore' : F64) :
    (Store.openWith db zoom typeId radius bboxes maxScore).getMatching M H chk ⟨.exact id, lang⟩
        opts n =
      (Store.openWith db' zoom' typeId' radius bboxes' maxScore').getMatching M H chk
        ⟨.exact id', lang⟩ opts n := by
  have hplan : ∀ (s : Store) (x : ℕ), x + 1 < 2 ^ 32 →
      s.fetchPlan chk (.exact x) = some (x, x + 1, .singlePhrase) := by
    intro s x hx
    unfold Store.fetchPlan
    simp only
    rw [if_neg (by simp; intro _; omega), Nat.mod_eq_of_lt hx]
  have hs : SameRenamed (fun _ => id') id (id + 1) id' (id' + 1) cs cs' := by
    refine ⟨fun _ _ _ _ => ⟨le_refl _, Nat.lt_succ_self _⟩, ?_, ?_, ?_⟩
    · intro p p' h1 h2 h3 _ _
      omega
    · intro q h1 h2 hq
      have : q = id' := by omega
      subst this
      obtain ⟨l, hl⟩ := hq
      exact ⟨id, le_refl _, Nat.lt_succ_self _, ⟨l, fun hn => hl ((hsame l).1.1 hn)⟩, rfl⟩
    · intro p l h1 h2 _
      have : p = id := by omega
      subst this
      exact hsame l
  exact h.query_renamed h' hsmall hsmall' hs (by omega) (by omega) (s := Store.openWith db ..)
    (s' := Store.openWith db' ..) rfl rfl rfl (hplan _ _ hid) (hplan _ _ hid') lang M H opts n

theorem content_renumber {map : List ℕ} {i j : ℕ} (hij : map[i]? = some j)
    (hinj : ∀ p, HasPhrase cs p → map[p]? = some j → p = i) (l : ℕ) :
    Content.run (cs ++ [.renumber map]) ⟨j, l⟩ = Content.run cs ⟨i, l⟩ := by
  have hrun : Content.run (cs ++ [.renumber map]) = (Content.run cs).renumber map := by
    unfold Content.run
    rw [List.foldl_append]
    rfl
  rw [hrun]
  refine Option.ext fun es => ?_
  unfold Content.renumber
  constructor
  · intro h
    obtain ⟨p, hp, hf⟩ := List.exists_of_findSome?_eq_some h
    simp only at hf
    split_ifs at hf with h1
    have hpi : p = i := hinj p ⟨l, by rw [hf]; simp⟩ h1
    rw [hpi] at hf
    exact hf
  · intro h
    cases hx : (List.range map.length).findSome? (fun p =>
        if map[p]? = some (⟨j, l⟩ : GridKey).phraseId then
          Content.run cs ⟨p, (⟨j, l⟩ : GridKey).langSet⟩ else none) with
    | none =>
      rw [List.findSome?_eq_none_iff] at hx
      have := hx i (List.mem_range.2 (List.getElem?_eq_some_iff.1 hij).1)
      simp only [hij, if_true] at this
      rw [this] at h
      cases h
    | some es' =>
      obtain ⟨p, hp, hf⟩ := List.exists_of_findSome?_eq_some hx
      simp only at hf
      split_ifs at hf with h1
      have hpi : p = i := hinj p ⟨l, by rw [hf]; simp⟩ h1
      rw [hpi, h] at hf
      exact hf.symm

/-- **C87**: after `renumber` a phrase is found under its new number with what was found under the
old one. -/
theorem C87_renumbered (map : List ℕ) (h : Made cs o b db)
    (h' : Made (cs ++ [.renumber map]) o' b' db') (hsmall : SmallRecords db)
    (hsmall' : SmallRecords db') (id id' lang : ℕ) (hid : id + 1 < 2 ^ 32) (hid' : id' + 1 < 2 ^ 32)
    (hmap : map[id]? = some id') (halone : ∀ p, HasPhrase cs p → map[p]? = some id' → p = id)
    (M : KMerger) (H : Heap QueueElement.key)
    (chk : Bool) (opts : MatchOpts) (n : ℕ) (zoom zoom' typeId typeId' : ℕ) (radius : F64)
    (bboxes bboxes' : List BBox) (maxScore maxScore' : F64) :
    (Store.openWith db zoom typeId radius bboxes maxScore).getMatching M H chk ⟨.exact id, lang⟩
        opts n =
      (Store.openWith db' zoom' typeId' radius bboxes' maxScore').getMatching M H chk
        ⟨.exact id', lang⟩ opts n := by
  refine C87_exact h h' hsmall hsmall' id id' lang hid hid' (fun l => ?_) M H chk opts n ..
  rw [content_renumber hmap halone]
  refine ⟨Iff.rfl, fun es es' he he' e => ?_⟩
  rw [he] at he'
  rw [Option.some.inj he']

/-- Two phrases in different languages. -/
def mergeCalls : List Call :=
  [.append ⟨0, 1⟩ [⟨1, 3, 5, 6, 7, 8⟩], .append ⟨1, 2⟩ [⟨1, 3, 5, 6, 9, 8⟩]]

/-- **C87**: `renumber` may send two phrases to one number without an error when their languages
differ; then what was found under either is found under it. So the number must be given to one phrase
only in `C87_renumbered`. -/
theorem C87_phrases_can_merge :
    ((Builder.run (mergeCalls ++ [.renumber [0, 0]])).isSome = true) ∧
    ((Store.new (leaves mergeCalls)).getMatching listMerger (listHeap _) true ⟨.exact 0, 3⟩
      ⟨none, none, 6⟩ 5).map (·.map (·.entry.id)) = some [7] ∧
    ((Store.new (leaves (mergeCalls ++ [.renumber [0, 0]]))).getMatching listMerger (listHeap _) true
      ⟨.exact 0, 3⟩ ⟨none, none, 6⟩ 5).map (·.map (·.entry.id)) = some [9, 7] := by
  refine ⟨by decide +kernel, by decide +kernel, by decide +kernel⟩

/-- What the first history leaves for the first phrase or range, the second leaves for the second,
and neither range is read through bins. -/
inductive SameCalled (cs cs' : List Call) : MatchPhrase → MatchPhrase → Prop
  | exact (id id' : ℕ) (bound : id + 1 < 2 ^ 32) (bound' : id' + 1 < 2 ^ 32)
      (same : ∀ l, (Content.run cs ⟨id, l⟩ = none ↔ Content.run cs' ⟨id', l⟩ = none) ∧
        ∀ es es', Content.run cs ⟨id, l⟩ = some es → Content.run cs' ⟨id', l⟩ = some es' →
          ∀ e, e ∈ es ↔ e ∈ es') : SameCalled cs cs' (.exact id) (.exact id')
  | range (f : ℕ → ℕ) (st en st' en' : ℕ) (bound : st < 2 ^ 32) (bound' : st' < 2 ^ 32)
      (same : SameRenamed f st en st' en' cs cs')
      (not : ¬ (st ∈ lastBounds cs ∧ en ∈ lastBounds cs))
      (not' : ¬ (st' ∈ lastBounds cs' ∧ en' ∈ lastBounds cs')) :
      SameCalled cs cs' (.range st en) (.range st' en')

/-- `q'` is `q` for a store in which the phrases have other numbers, with the phrases looked up
under these numbers. -/
structure RenamedQ (q q' : Subquery) : Prop where
  renamed : ∃ cs cs' o o' b b' db db' zoom typeId typeId' radius bboxes bboxes' maxScore maxScore'
      keys',
    Made cs o b db ∧ Made cs' o' b' db' ∧ SmallRecords db ∧ SmallRecords db' ∧
    q.store = Store.openWith db zoom typeId radius bboxes maxScore ∧
    q' = { q with
      store := Store.openWith db' zoom typeId' radius bboxes' maxScore', matchKeys := keys' } ∧
    Option.Rel (fun k k' : KeyWithId => SameCalled cs cs' k.key.phrase k'.key.phrase ∧
      k.key.langSet = k'.key.langSet) q.matchKeys.head? keys'.head?

/-- **C87**, `coalesce`: the numbers of the phrases make no difference to the result. -/
theorem C87_coalesce (env : Env) (os : ℕ → IterOrder) (stack stack' : List Subquery)
    (opts : MatchOpts) (h : List.Forall₂ RenamedQ stack stack') :
    coalesce env os stack opts = coalesce env os stack' opts := by
  refine coalesce_alike (h.imp ?_) os opts
  rintro q q' ⟨cs, cs', o, o', b, b', db, db', zoom, typeId, typeId', radius, bboxes, bboxes',
    maxScore, maxScore', keys', hm, hm', hsm, hsm', hst, rfl, hs⟩
  refine ⟨rfl, by rw [hst]; rfl, ?_⟩
  simp only
  rw [hst]
  generalize q.matchKeys.head? = x at hs ⊢
  generalize keys'.head? = y at hs ⊢
  cases hs with
  | none => exact .none
  | @some k k' hk =>
    refine .some fun opts n => ?_
    obtain ⟨⟨ph, l⟩, a1, a2, a3⟩ := k
    obtain ⟨⟨ph', l'⟩, a1', a2', a3'⟩ := k'
    obtain ⟨h1, h2⟩ := hk
    simp only at h1 h2
    subst h2
    cases h1 with
    | exact id id' bound bound' same =>
      exact C87_exact hm hm' hsm hsm' id id' l bound bound' same _ _ _ opts n ..
    | range f st en st' en' bound bound' same not not' =>
      exact C87_range hm hm' hsm hsm' f st en st' en' l bound bound' same not not' _ _ _ opts n ..

/-! ## Examples -/

/-- Two phrases, one of them in two languages. -/
def renameCalls : List Call :=
  [.append ⟨2, 1⟩ [⟨1, 3, 5, 6, 7, 8⟩], .append ⟨4, 1⟩ [⟨lit 0.8, 1, 5, 6, 9, 8⟩],
    .append ⟨4, 3⟩ [⟨1, 2, 1, 1, 1, 1⟩]]

/-- The same phrases as 5 and 8, and another one. -/
def renameCalls' : List Call :=
  [.append ⟨20, 1⟩ [⟨1, 3, 5, 6, 7, 8⟩], .append ⟨8, 3⟩ [⟨1, 2, 1, 1, 1, 1⟩],
    .append ⟨8, 1⟩ [⟨lit 0.8, 1, 5, 6, 9, 8⟩], .append ⟨5, 1⟩ [⟨1, 3, 5, 6, 7, 8⟩],
    .append ⟨8, 1⟩ [⟨lit 0.8, 1, 5, 6, 9, 8⟩]]

theorem rename_made : ∃ b, Made renameCalls .id b (leaves renameCalls) := by
  refine ⟨_, ?_, ?_, rfl, by decide +kernel⟩
  · intro c hc
    simp only [renameCalls, List.mem_cons, List.not_mem_nil, or_false] at hc
    rcases hc with rfl | rfl | rfl <;> simp [Call.Wf, GridKey.Wf, GridEntry.Wf] <;> decide +kernel
  · intro c hc
    simp only [renameCalls, List.mem_cons, List.not_mem_nil, or_false] at hc
    rcases hc with rfl | rfl | rfl <;> trivial

theorem rename_made' : ∃ b, Made renameCalls' .id b (leaves renameCalls') := by
  refine ⟨_, ?_, ?_, rfl, by decide +kernel⟩
  · intro c hc
    simp only [renameCalls', List.mem_cons, List.not_mem_nil, or_false] at hc
    rcases hc with rfl | rfl | rfl | rfl | rfl <;> simp [Call.Wf, GridKey.Wf, GridEntry.Wf] <;>
      decide +kernel
  · intro c hc
    simp only [renameCalls', List.mem_cons, List.not_mem_nil, or_false] at hc
    rcases hc with rfl | rfl | rfl | rfl | rfl <;> trivial

theorem rename_made_renumber :
    ∃ b, Made (renameCalls ++ [.renumber [0, 1, 5, 3, 8]]) .id b
      (leaves (renameCalls ++ [.renumber [0, 1, 5, 3, 8]])) := by
  refine ⟨_, ?_, ?_, rfl, by decide +kernel⟩
  · intro c hc
    simp only [renameCalls, List.mem_cons, List.not_mem_nil, or_false, List.cons_append,
      List.nil_append] at hc
    rcases hc with rfl | rfl | rfl | rfl <;> simp [Call.Wf, GridKey.Wf, GridEntry.Wf] <;>
      decide +kernel
  · intro c hc
    simp only [renameCalls, List.mem_cons, List.not_mem_nil, or_false, List.cons_append,
      List.nil_append] at hc
    rcases hc with rfl | rfl | rfl | rfl <;> trivial

theorem rename_has {p : ℕ} (h : HasPhrase renameCalls p) : p = 2 ∨ p = 4 := by
  obtain ⟨l, hl⟩ := h
  by_contra hc
  push Not at hc
  refine hl ?_
  simp [renameCalls, Content.run, Content.call, Content.set, hc.1, hc.2]

theorem rename_has' {p : ℕ} (h : HasPhrase renameCalls' p) : p = 5 ∨ p = 8 ∨ p = 20 := by
  obtain ⟨l, hl⟩ := h
  by_contra hc
  push Not at hc
  refine hl ?_
  simp [renameCalls', Content.run, Content.call, Content.set, hc.1, hc.2.1, hc.2.2]

theorem rename_two (l : ℕ) :
    (Content.run renameCalls ⟨2, l⟩ = none ↔ Content.run renameCalls' ⟨5, l⟩ = none) ∧
    ∀ es es', Content.run renameCalls ⟨2, l⟩ = some es → Content.run renameCalls' ⟨5, l⟩ = some es' →
      ∀ e, e ∈ es ↔ e ∈ es' := by
  simp only [renameCalls, renameCalls', Content.run, List.foldl_cons, List.foldl_nil, Content.call,
    Content.set]
  by_cases h : l = 1
  · subst h; simp
  · simp [h]

theorem rename_four (l : ℕ) :
    (Content.run renameCalls ⟨4, l⟩ = none ↔ Content.run renameCalls' ⟨8, l⟩ = none) ∧
    ∀ es es', Content.run renameCalls ⟨4, l⟩ = some es → Content.run renameCalls' ⟨8, l⟩ = some es' →
      ∀ e, e ∈ es ↔ e ∈ es' := by
  simp only [renameCalls, renameCalls', Content.run, List.foldl_cons, List.foldl_nil, Content.call,
    Content.set]
  by_cases h : l = 1
  · subst h; simp
  · by_cases h3 : l = 3
    · subst h3; simp
    · simp [h, h3]

theorem rename_same : SameRenamed (fun p => if p = 2 then 5 else 8) 1 5 5 20 renameCalls
    renameCalls' := by
  have h2 : HasPhrase renameCalls 2 := ⟨1, by decide +kernel⟩
  have h4 : HasPhrase renameCalls 4 := ⟨1, by decide +kernel⟩
  refine ⟨?_, ?_, ?_, ?_⟩
  · intro p _ _ _
    by_cases h : p = 2 <;> simp [h]
  · intro p p' _ hlt _ hp hp'
    rcases rename_has hp with rfl | rfl <;> rcases rename_has hp' with rfl | rfl <;> simp at hlt ⊢
  · intro q h5 h20 hq
    rcases rename_has' hq with rfl | rfl | rfl
    · exact ⟨2, by omega, by omega, h2, rfl⟩
    · exact ⟨4, by omega, by omega, h4, rfl⟩
    · omega
  · intro p l _ _ hp
    rcases rename_has hp with rfl | rfl
    · exact rename_two l
    · exact rename_four l

/-- The hypotheses of `C87_range`; three rows are found. -/
example : (∃ b, Made renameCalls .id b (leaves renameCalls)) ∧
    (∃ b, Made renameCalls' .id b (leaves renameCalls')) ∧
    SmallRecords (leaves renameCalls) ∧ SmallRecords (leaves renameCalls') ∧
    SameRenamed (fun p => if p = 2 then 5 else 8) 1 5 5 20 renameCalls renameCalls' ∧
    ¬ (1 ∈ lastBounds renameCalls ∧ 5 ∈ lastBounds renameCalls) ∧
    ((Store.new (leaves renameCalls')).getMatching listMerger (listHeap _) true ⟨.range 5 20, 1⟩
      ⟨none, none, 6⟩ 5).map (·.map (·.entry.id)) = some [7, 1, 9] :=
  ⟨rename_made, rename_made', by decide +kernel, by decide +kernel, rename_same, by decide +kernel,
    by decide +kernel⟩

/-- The hypotheses of `C87_exact`. -/
example (l : ℕ) :
    (Content.run renameCalls ⟨4, l⟩ = none ↔ Content.run renameCalls' ⟨8, l⟩ = none) ∧
    ∀ es es', Content.run renameCalls ⟨4, l⟩ = some es → Content.run renameCalls' ⟨8, l⟩ = some es' →
      ∀ e, e ∈ es ↔ e ∈ es' := rename_four l

/-- The hypotheses of `C87_renumbered`. -/
example : (∃ b, Made (renameCalls ++ [.renumber [0, 1, 5, 3, 8]]) .id b
      (leaves (renameCalls ++ [.renumber [0, 1, 5, 3, 8]]))) ∧
    SmallRecords (leaves (renameCalls ++ [.renumber [0, 1, 5, 3, 8]])) ∧
    ([0, 1, 5, 3, 8] : List ℕ)[4]? = some 8 ∧
    ∀ p, HasPhrase renameCalls p → ([0, 1, 5, 3, 8] : List ℕ)[p]? = some 8 → p = 4 := by
  refine ⟨rename_made_renumber, by decide +kernel, rfl, fun p hp h => ?_⟩
  rcases rename_has hp with rfl | rfl
  · simp at h
  · rfl

/-- The hypotheses of `C87_as_if_written`. -/
example : (∀ c ∈ renameCalls, NotRenumber c) ∧
    (Builder.run (renameCalls ++ [.renumber [0, 1, 5, 3, 8]])).isSome = true := by
  refine ⟨?_, by decide +kernel⟩
  intro c hc
  simp only [renameCalls, List.mem_cons, List.not_mem_nil, or_false] at hc
  rcases hc with rfl | rfl | rfl <;> trivial

/-- The hypotheses of `C87_twice` and `C87_back`. -/
example : ∃ b, Builder.run renameCalls = some b ∧ b.Wf ∧
    (b.renumber [0, 1, 5, 3, 8]).2 = .ok () ∧
    (∀ r ∈ b.data, ([0, 0, 7, 0, 6] : List ℕ)[r.1.phraseId]? =
      ([0, 1, 5, 3, 8] : List ℕ)[r.1.phraseId]?.bind (([0, 0, 0, 0, 0, 7, 0, 0, 6] : List ℕ)[·]?)) ∧
    (b.renumber [0, 0, 7, 0, 6]).2 = .ok () ∧
    (∀ r ∈ b.data, ([0, 1, 5, 3, 8] : List ℕ)[r.1.phraseId]?.bind
      (([0, 0, 0, 0, 0, 2, 0, 0, 4] : List ℕ)[·]?) = some r.1.phraseId) := by
  obtain ⟨b, hb⟩ := rename_made
  have hrun := hb.run
  have hwf := (refines_run hb.wf hb.run).wf
  have hb' : Builder.run renameCalls = some ((Builder.run renameCalls).get (by decide +kernel)) :=
    (Option.some_get _).symm
  rw [hb'] at hrun
  have hbe := Option.some.inj hrun
  subst hbe
  exact ⟨_, hb', hwf, by decide +kernel, by decide +kernel, by decide +kernel, by decide +kernel⟩

/-- The phrase match for phrase 4 of the first store. -/
def renameMatch : Subquery :=
  ⟨Store.new (leaves renameCalls), 0, [], 1, 1, [⟨⟨.exact 4, 1⟩, false, 0, 1⟩]⟩

/-- The phrase match for phrase 8 of the second store. -/
def renameMatch' : Subquery :=
  ⟨Store.new (leaves renameCalls'), 0, [], 1, 1, [⟨⟨.exact 8, 1⟩, false, 0, 1⟩]⟩

/-- The hypotheses of `C87_coalesce`. -/
example : List.Forall₂ RenamedQ [renameMatch] [renameMatch'] := by
  obtain ⟨b, hb⟩ := rename_made
  obtain ⟨b', hb'⟩ := rename_made'
  refine .cons ⟨⟨_, _, _, _, b, b', _, _, 6, 0, 0, 0, [⟨0, 0, 63, 63⟩], [⟨0, 0, 63, 63⟩], 0, 0,
    _, hb, hb', by decide +kernel, by decide +kernel, rfl, rfl, ?_⟩⟩ .nil
  exact .some ⟨.exact 4 8 (by norm_num) (by norm_num) rename_four, rfl⟩

end Carmen
