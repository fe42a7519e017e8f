import Verif.Spec.Index
import Verif.Props.NativeStore
import Verif.Props.Failed

/-!
# C66: an index of phrases and grids built from JavaScript
-/

namespace Carmen
open Builder Spec

/-! ## The builder of phrases after `finish` -/

/-- C66: `finish` of the phrase builder, whether it returns or throws, leaves an object on which every
call throws and changes nothing. -/
theorem C66_after_finish {C : PhraseCrate} (P : PhraseSerde C) (st : JsPhrases C)
    (c : PhraseCall) :
    (jsPhraseFinish st).1.step P c = ((jsPhraseFinish st).1, .threw) := by
  have hn : (jsPhraseFinish st).1.inner = none := by
    unfold jsPhraseFinish
    split
    · assumption
    · split <;> rfl
  cases c with
  | insert args =>
    show jsPhraseInsert P args _ = _
    unfold jsPhraseInsert
    rw [hn]
    cases args[0]?.bind P.words <;> rfl
  | loadWordReplacements args =>
    show jsPhraseLoad P args _ = _
    unfold jsPhraseLoad
    rw [hn]
    cases args[0]?.bind P.replacements <;> rfl
  | finish =>
    show jsPhraseFinish _ = _
    generalize (jsPhraseFinish st).1 = st' at hn
    unfold jsPhraseFinish
    rw [hn]

/-! ## Numbers -/

/-- C66: whole numbers from 0 to 255 reach the fuzzy searches as they are; larger ones count as 255,
negative ones and NaN as 0. -/
theorem C66_distances {C : PhraseCrate}
    (f : C.Index → List String → ℕ → ℕ → Fin 3 → Option C.Match) (P : PhraseSerde C) (ix : C.Index)
    (v e : JsValue) (w : List String) (t : Fin 3) (hw : P.words v = some w) (he : P.ending e = some t)
    (d d' : ℤ) (rest : List JsValue) :
    jsFuzzyWith f P ix (v :: .num (.fin d) :: .num (.fin d') :: e :: rest) =
      replyOf (f ix w (min 255 d.toNat) (min 255 d'.toNat) t) := by
  simp only [jsFuzzyWith, List.getElem?_cons_zero, List.getElem?_cons_succ, Option.bind_some, hw, he,
    numArg, JsValue.number, castTo, Int.floor_intCast]

/-- C66: `contains`, and `fuzzyMatchMulti` with whole numbers, hand their arguments to the index, with the
numbers clamped as above. -/
theorem C66_arguments {C : PhraseCrate} (P : PhraseSerde C) (ix : C.Index) (v e : JsValue)
    (rest : List JsValue) :
    (∀ w t, P.words v = some w → P.ending e = some t → jsContains P ix (v :: e :: rest) =
      match C.contains ix w t with
      | some b => .returned (.bool b)
      | none => .threw) ∧
    ∀ qs (d d' : ℤ), P.queries v = some qs →
      jsFuzzyMulti P ix (v :: .num (.fin d) :: .num (.fin d') :: rest) =
        match C.fuzzyMatchMulti ix qs (min 255 d.toNat) (min 255 d'.toNat) with
        | some m => .returned m
        | none => .threw := by
  refine ⟨fun w t hw ht => ?_, fun qs d d' hq => ?_⟩
  · simp only [jsContains, List.getElem?_cons_zero, List.getElem?_cons_succ, Option.bind_some, hw, ht]
    cases C.contains ix w t <;> rfl
  · simp only [jsFuzzyMulti, List.getElem?_cons_zero, List.getElem?_cons_succ, Option.bind_some, hq,
      numArg, JsValue.number, castTo, Int.floor_intCast]
    cases C.fuzzyMatchMulti ix qs (min 255 d.toNat) (min 255 d'.toNat) <;> rfl

/-- C54: `getPrefixBins` of a whole number asks the index for bins of up to that many phrases, and
returns the first phrase of each and the phrase after the last. -/
theorem C54_from_index {C : PhraseCrate} (ix : C.Index) (n : ℕ) (hn : n < 2 ^ 64)
    (rest : List JsValue) :
    (C.prefixBins ix n = none → jsPrefixBins ix (.num (.fin n) :: rest) = .threw) ∧
    (C.prefixBins ix n = some [] →
      jsPrefixBins ix (.num (.fin n) :: rest) = .returned (bufferOf [])) ∧
    ∀ bins last, C.prefixBins ix n = some (bins ++ [last]) →
      (∀ b ∈ bins ++ [last], b.1 < 2 ^ 32 ∧ b.2 + 1 < 2 ^ 32) →
      jsPrefixBins ix (.num (.fin n) :: rest) =
        .returned (bufferOf ((bins ++ [last]).map Prod.fst ++ [last.2 + 1])) := by
  have hm : min usizeMax n = n := by unfold usizeMax; omega
  have he : jsPrefixBins ix (.num (.fin n) :: rest) =
      replyOf ((C.prefixBins ix n).map fun bins => bufferOf (prefixBinIds bins)) := by
    simp only [jsPrefixBins, numArg, List.getElem?_cons_zero, Option.bind_some, JsValue.number,
      castTo_nat, hm]
  refine ⟨fun h => by rw [he, h]; rfl, fun h => by rw [he, h]; rfl, fun bins last h hb => ?_⟩
  rw [he, h]
  have hl := hb last (by simp)
  have h1 : prefixBinIds (bins ++ [last]) = (bins ++ [last]).map Prod.fst ++ [last.2 + 1] := by
    unfold prefixBinIds
    rw [List.getLast?_concat]
    simp only
    rw [Nat.mod_eq_of_lt (by omega : last.2 < 2 ^ 32), Nat.mod_eq_of_lt hl.2]
    exact congrArg (· ++ _) (List.map_congr_left fun b hbm => Nat.mod_eq_of_lt (hb b hbm).1)
  rw [Option.map_some, h1]
  rfl

/-- C66: `getByPhraseId` of a phrase id looks that id up. -/
theorem C66_phrase_by_id {C : PhraseCrate} (ix : C.Index) (n : ℕ) (hn : n < 2 ^ 32)
    (rest : List JsValue) :
    jsGetByPhraseId ix (.num (.fin n) :: rest) = match C.getByPhraseId ix n with
      | none => .threw
      | some none => .returned .undefined
      | some (some w) => .returned (.arr (w.map .str)) := by
  simp only [jsGetByPhraseId, numArg, List.getElem?_cons_zero, Option.bind_some, JsValue.number,
    castTo_nat]
  have : min u32Max n = n := by unfold u32Max; omega
  rw [this]
  rfl

/-- C66: a negative number is looked up as phrase 0. -/
theorem C66_negative_id {C : PhraseCrate} (ix : C.Index) (q : ℚ) (hq : q < 0) (rest : List JsValue) :
    jsGetByPhraseId ix (.num (.fin q) :: rest) = jsGetByPhraseId ix [.num (.fin 0)] := by
  have h1 : ⌊q⌋.toNat = 0 := Int.toNat_of_nonpos (Int.floor_nonpos hq.le)
  have h2 : ⌊(0 : ℚ)⌋.toNat = 0 := by simp
  simp only [jsGetByPhraseId, numArg, List.getElem?_cons_zero, Option.bind_some, JsValue.number,
    castTo, h1, h2]

/-! ## Building an index -/

variable {C : PhraseCrate} {P : PhraseSerde C} {S : Serde}

/-- The native calls for items that were given these ids. -/
def itemCalls (ps : List (IndexItem P S × ℕ)) : List Call :=
  ps.map fun p => .append ⟨p.2, p.1.langSet⟩ p.1.grids

/-- The phrases and ids. -/
def itemLog (ps : List (IndexItem P S × ℕ)) : List (List String × ℕ) :=
  ps.map fun p => (p.1.words, p.2)

theorem item_key (it : IndexItem P S) {id : ℕ} (h : id < 2 ^ 32) :
    KeyObject (.obj [("phrase_id", .num (.fin id)), ("lang_set", it.langs)]) ⟨id, it.langSet⟩ :=
  ⟨rfl, rfl, h, it.langs_set⟩

theorem indexItem_eq (it : IndexItem P S) (pst : C.State) (disk : Option C.Index) (b : Builder)
    (db : SMap Bytes Bytes) :
    indexItem (⟨some pst, disk⟩, ⟨some b, db⟩) it =
      (C.insert pst it.words).2.map fun id =>
        (⟨some (C.insert pst it.words).1, disk⟩,
          ⟨some (b.append ⟨id, it.langSet⟩ it.grids), db⟩) := by
  unfold indexItem jsPhraseInsert
  simp only [List.getElem?_cons_zero, Option.bind_some, it.phrase_words]
  cases hi : (C.insert pst it.words).2 with
  | none => rfl
  | some id =>
    have h := C.insert_u32 _ _ _ hi
    simp only [jsAppend, prepForInsert, List.getElem?_cons_zero, List.getElem?_cons_succ,
      Option.bind_eq_bind, Option.bind_some, it.entries_grids, keyArg_of_keyObject (item_key it h),
      JsBuilder.modify, Option.map_some]

theorem runFrom_append (b : Builder) (cs ds : List Call) :
    b.runFrom (cs ++ ds) = (b.runFrom cs).bind fun b' => b'.runFrom ds := by
  induction cs generalizing b with
  | nil => rfl
  | cons c t ih =>
    simp only [List.cons_append, Builder.runFrom]
    cases b.call c with
    | none => rfl
    | some b' => exact ih b'

/-- The loop over the items: what the two builders are afterwards. -/
theorem indexLoop_some (items : List (IndexItem P S)) {ps : List (IndexItem P S × ℕ)}
    {pst : C.State} {b : Builder} (hl : Logged C pst (itemLog ps))
    (hb : Builder.run (itemCalls ps) = some b) (hu : ∀ p ∈ ps, p.2 < 2 ^ 32)
    {st : JsPhrases C × JsBuilder}
    (h : items.foldlM indexItem (⟨some pst, none⟩, ⟨some b, []⟩) = some st) :
    ∃ qs : List (IndexItem P S × ℕ), ∃ pst' b', qs.map Prod.fst = ps.map Prod.fst ++ items ∧
      Logged C pst' (itemLog qs) ∧ Builder.run (itemCalls qs) = some b' ∧
      (∀ p ∈ qs, p.2 < 2 ^ 32) ∧ st = (⟨some pst', none⟩, ⟨some b', []⟩) := by
  induction items generalizing ps pst b with
  | nil =>
    simp only [List.foldlM_nil] at h
    cases h
    exact ⟨ps, pst, b, by simp, hl, hb, hu, rfl⟩
  | cons it t ih =>
    rw [List.foldlM_cons, indexItem_eq] at h
    cases hi : (C.insert pst it.words).2 with
    | none => rw [hi] at h; cases h
    | some id =>
      rw [hi] at h
      simp only [Option.map_some, Option.bind_eq_bind, Option.bind_some] at h
      have hl' : Logged C (C.insert pst it.words).1 (itemLog (ps ++ [(it, id)])) := by
        simp only [itemLog, List.map_append, List.map_cons, List.map_nil]
        exact Logged.insert hl (by rw [← hi])
      have hb' : Builder.run (itemCalls (ps ++ [(it, id)])) =
          some (b.append ⟨id, it.langSet⟩ it.grids) := by
        simp only [itemCalls, List.map_append, List.map_cons, List.map_nil, Builder.run] at hb ⊢
        rw [runFrom_append, hb]
        rfl
      obtain ⟨qs, pst', b', h1, h2⟩ := ih hl' hb' (by
        intro p hp
        rcases List.mem_append.1 hp with hp | hp
        · exact hu p hp
        · rw [List.mem_singleton.1 hp]; exact C.insert_u32 _ _ _ hi) h
      exact ⟨qs, pst', b', by simpa using h1, h2⟩

/-- What the appends leave behind. -/
theorem content_itemCalls (ps : List (IndexItem P S × ℕ)) (k : GridKey) :
    Content.run (itemCalls ps) k =
      match ps.filter fun p => decide (p.2 = k.phraseId ∧ p.1.langSet = k.langSet) with
      | [] => none
      | l => some (l.flatMap fun p => p.1.grids) := by
  induction ps using List.reverseRecOn with
  | nil => rfl
  | append_singleton ps p ih =>
    have e : Content.run (itemCalls (ps ++ [p])) =
        (Content.run (itemCalls ps)).call (.append ⟨p.2, p.1.langSet⟩ p.1.grids) := by
      simp only [itemCalls, Content.run, List.map_append, List.map_cons, List.map_nil,
        List.foldl_append, List.foldl_cons, List.foldl_nil]
    rw [e]
    simp only [Content.call, Content.set, List.filter_append, List.filter_cons, List.filter_nil]
    by_cases hk : k = ⟨p.2, p.1.langSet⟩
    · subst hk
      simp only [if_true, and_self, decide_true]
      rw [ih]
      cases hf : ps.filter fun q =>
        decide (q.2 = p.2 ∧ q.1.langSet = p.1.langSet) with
      | nil => simp
      | cons a l => simp
    · have hk' : ¬ (p.2 = k.phraseId ∧ p.1.langSet = k.langSet) := by
        rintro ⟨h1, h2⟩
        exact hk (by cases k; simp only at h1 h2; rw [h1, h2])
      simp only [if_neg hk, hk', decide_false, List.append_nil, ih, if_false, Bool.false_eq_true]

theorem content_itemCalls' (ps : List (IndexItem P S × ℕ)) (k : GridKey) :
    Content.run (itemCalls ps) k =
      if ps.any (fun p => decide (p.2 = k.phraseId ∧ p.1.langSet = k.langSet)) then
        some ((ps.filter fun p => decide (p.2 = k.phraseId ∧ p.1.langSet = k.langSet)).flatMap
          fun p => p.1.grids)
      else none := by
  rw [content_itemCalls]
  cases hf : ps.filter fun p => decide (p.2 = k.phraseId ∧ p.1.langSet = k.langSet) with
  | nil =>
    have : ps.any (fun p => decide (p.2 = k.phraseId ∧ p.1.langSet = k.langSet)) = false := by
      rw [List.filter_eq_nil_iff] at hf
      exact List.any_eq_false.2 hf
    rw [this]; rfl
  | cons a l =>
    have : ps.any (fun p => decide (p.2 = k.phraseId ∧ p.1.langSet = k.langSet)) = true := by
      have ha : a ∈ ps.filter fun p => decide (p.2 = k.phraseId ∧ p.1.langSet = k.langSet) := by
        rw [hf]; exact List.mem_cons_self
      exact List.any_eq_true.2 ⟨a, (List.mem_filter.1 ha).1, (List.mem_filter.1 ha).2⟩
    rw [this]; rfl

theorem calls_wf {ps : List (IndexItem P S × ℕ)} (hu : ∀ p ∈ ps, p.2 < 2 ^ 32) :
    ∀ c ∈ itemCalls ps, c.Wf := by
  intro c hc
  obtain ⟨p, hp, rfl⟩ := List.mem_map.1 hc
  refine ⟨?_, S.entries_wf _ _ p.1.entries_grids⟩
  exact keyArg_wf (keyArg_of_keyObject (item_key p.1 (hu p hp)))

/-- Rows of the grid builder are the items' keys. -/
theorem rows_itemCalls {ps : List (IndexItem P S × ℕ)} (hu : ∀ p ∈ ps, p.2 < 2 ^ 32) {b : Builder}
    (hb : Builder.run (itemCalls ps) = some b) (k : GridKey) :
    (∃ e, (k, e) ∈ b.data) ↔ ∃ p ∈ ps, k = ⟨p.2, p.1.langSet⟩ := by
  have hr := refines_run (calls_wf hu) hb
  rw [← hr.isSome_iff k, content_itemCalls']
  split_ifs with h
  · simp only [Option.isSome_some, true_iff]
    obtain ⟨p, hp, h1⟩ := List.any_eq_true.1 h
    obtain ⟨h2, h3⟩ := of_decide_eq_true h1
    exact ⟨p, hp, by cases k; simp only at h2 h3; rw [h2, h3]⟩
  · simp only [Option.isSome_none, Bool.false_eq_true, false_iff, not_exists, not_and]
    rintro p hp rfl
    exact h (List.any_eq_true.2 ⟨p, hp, by simp⟩)

/-- `renumber` with the map of the phrase builder fails exactly when a phrase was given two ids for one
language set. -/
theorem renumber_items (hC : FindsPhrases C) {ps : List (IndexItem P S × ℕ)}
    (hu : ∀ p ∈ ps, p.2 < 2 ^ 32) {b : Builder} (hb : Builder.run (itemCalls ps) = some b)
    {pst : C.State} (hl : Logged C pst (itemLog ps)) {map : List ℕ} {ix : C.Index}
    (hf : C.finish pst = some (map, ix)) :
    (b.renumber map).2 = .ok () ↔ ∀ p ∈ ps, ∀ q ∈ ps, p.1.words = q.1.words →
      p.1.langSet = q.1.langSet → p.2 = q.2 := by
  have hr := refines_run (calls_wf hu) hb
  have hrow := rows_itemCalls hu hb
  have hlog : ∀ p ∈ ps, (p.1.words, p.2) ∈ itemLog ps := fun p hp =>
    List.mem_map.2 ⟨p, hp, rfl⟩
  have hat : ∀ p ∈ ps, ∃ n, map[p.2]? = some n ∧ C.getByPhraseId ix n = some (some p.1.words) := by
    intro p hp
    have h1 := hC.total hl hf (hlog p hp)
    exact ⟨map[p.2], List.getElem?_eq_getElem h1,
      (hC.exact hl hf).2 ⟨p.2, hlog p hp, List.getElem?_eq_getElem h1⟩⟩
  rw [C09_renumber_succeeds_iff b hr.wf map]
  constructor
  · rintro ⟨-, h⟩ p hp q hq hw hs
    obtain ⟨e, he⟩ := (hrow _).2 ⟨p, hp, rfl⟩
    obtain ⟨e', he'⟩ := (hrow _).2 ⟨q, hq, rfl⟩
    obtain ⟨n, h1, h2⟩ := hat p hp
    obtain ⟨n', h3, h4⟩ := hat q hq
    have hn : n = n' := hC.once hl hf h2 (hw ▸ h4)
    have := h _ he _ he' (by simp only [h1, h3, hn]) hs
    exact congrArg GridKey.phraseId this
  · intro h
    refine ⟨?_, ?_⟩
    · rintro ⟨k, e⟩ hk
      obtain ⟨p, hp, rfl⟩ := (hrow k).1 ⟨e, hk⟩
      exact hC.total hl hf (hlog p hp)
    · rintro ⟨k, e⟩ hk ⟨k', e'⟩ hk' hm hs
      obtain ⟨p, hp, rfl⟩ := (hrow k).1 ⟨e, hk⟩
      obtain ⟨q, hq, rfl⟩ := (hrow k').1 ⟨e', hk'⟩
      simp only at hm hs ⊢
      obtain ⟨n, h1, h2⟩ := hat p hp
      obtain ⟨n', h3, h4⟩ := hat q hq
      rw [h1, h3] at hm
      cases hm
      rw [h2] at h4
      have hw : p.1.words = q.1.words := by simpa using h4
      rw [h p hp q hq hw hs, hs]

theorem jsRenumber_buffer {map : List ℕ} (hm : ∀ n ∈ map, n < 2 ^ 32) (b : Builder)
    (db : SMap Bytes Bytes) :
    jsRenumber [bufferOf map] ⟨some b, db⟩ =
      (⟨some (b.renumber map).1, db⟩, decide ((b.renumber map).2 = .ok ())) := by
  obtain ⟨buf, h1, h2⟩ := bufferOf_u32s hm
  rw [h1]
  simp only [jsRenumber, bufferArg_of_u32s h2, JsBuilder.modify]
  cases (b.renumber map).2 with
  | ok u => cases u; simp
  | error e => simp

/-- A build that returns: what the objects have been doing. -/
theorem buildIndex_some {o : IterOrder} {items : List (IndexItem P S)} {ix : C.Index}
    {db : SMap Bytes Bytes} (h : buildIndex o items = some (ix, db)) :
    ∃ ps : List (IndexItem P S × ℕ), ∃ pst b map, ps.map Prod.fst = items ∧
      Logged C pst (itemLog ps) ∧ Builder.run (itemCalls ps) = some b ∧ (∀ p ∈ ps, p.2 < 2 ^ 32) ∧
      C.finish pst = some (map, ix) ∧ (b.renumber map).2 = .ok () ∧
      finish o (b.renumber map).1 = some db := by
  unfold buildIndex at h
  obtain ⟨st, h1, h2⟩ := Option.bind_eq_some_iff.1 h
  obtain ⟨ps, pst, b, h3, h4, h5, h6, rfl⟩ :=
    indexLoop_some items (ps := []) Logged.new rfl (by simp) h1
  refine ⟨ps, pst, b, ?_⟩
  simp only [jsPhraseFinish] at h2
  cases hf : C.finish pst with
  | none => rw [hf] at h2; cases h2
  | some r =>
    obtain ⟨map, ix'⟩ := r
    rw [hf] at h2
    simp only [jsRenumber_buffer (C.finish_u32 _ _ _ hf)] at h2
    by_cases hok : (b.renumber map).2 = .ok ()
    · simp only [hok, decide_true, jsFinish] at h2
      cases hfin : finishInto o [] (b.renumber map).1 with
      | none => rw [hfin] at h2; cases h2
      | some db' =>
        rw [hfin] at h2
        simp only [Option.map_some] at h2
        cases h2
        exact ⟨map, by simpa using h3, h4, h5, h6, rfl, hok, hfin⟩
    · simp only [hok, decide_false] at h2
      cases h2

/-- A build that returns acts like a history of native calls without boundaries, whose content is the
grids of the items under the final ids of their phrases. -/
theorem index_content (hC : FindsPhrases C) {o : IterOrder} {items : List (IndexItem P S)}
    {ix : C.Index} {db : SMap Bytes Bytes} (h : buildIndex o items = some (ix, db)) :
    ∃ cs b, (∀ c ∈ cs, Call.Wf c) ∧ ((∀ it ∈ items, ∀ e ∈ it.grids, e.score ≤ 15) →
        ∀ c ∈ cs, ∀ e ∈ c.entries, e.score ≤ 15) ∧
      Builder.run cs = some b ∧ finish o b = some db ∧ b.bounds = [] ∧
      (∀ n n' w, C.getByPhraseId ix n = some (some w) → C.getByPhraseId ix n' = some (some w) →
        n = n') ∧
      ∀ n langs, Content.run cs ⟨n, langs⟩ = gridsOf items fun it =>
        decide (C.getByPhraseId ix n = some (some it.words) ∧ it.langSet = langs) := by
  obtain ⟨ps, pst, b, map, rfl, hl, hb, hu, hf, hok, hfin⟩ := buildIndex_some h
  have hm := C.finish_u32 _ _ _ hf
  have hrun : Builder.run (itemCalls ps ++ [.renumber map]) = some (b.renumber map).1 := by
    unfold Builder.run at hb ⊢
    rw [runFrom_append, hb]
    simp only [Option.bind_some, Builder.runFrom, Builder.call]
    rcases hx : b.renumber map with ⟨b', r⟩
    rw [hx] at hok
    simp only at hok
    subst hok
    rfl
  have hwf : ∀ c ∈ itemCalls ps ++ [.renumber map], c.Wf := by
    intro c hc
    rcases List.mem_append.1 hc with hc | hc
    · exact calls_wf hu c hc
    · rw [List.mem_singleton.1 hc]; exact hm
  have hsc : (∀ it ∈ ps.map Prod.fst, ∀ e ∈ it.grids, e.score ≤ 15) →
      ∀ c ∈ itemCalls ps ++ [.renumber map], ∀ e ∈ c.entries, e.score ≤ 15 := by
    intro hscore c hc e he
    rcases List.mem_append.1 hc with hc | hc
    · obtain ⟨p, hp, rfl⟩ := List.mem_map.1 hc
      exact hscore p.1 (List.mem_map_of_mem hp) e he
    · rw [List.mem_singleton.1 hc] at he
      cases he
  have hbounds : (b.renumber map).1.bounds = [] := by
    rw [bounds_runFrom hrun, List.foldl_append]
    show List.foldl _ [] (itemCalls ps) = []
    unfold itemCalls
    clear hl hb hu hok hsc hwf hrun hfin h
    induction ps with
    | nil => rfl
    | cons p t ih => exact ih
  refine ⟨_, _, hwf, hsc, hrun, hfin, hbounds, fun _ _ _ => hC.once hl hf, fun n langs => ?_⟩
  -- the content after renumbering
  have hids := (renumber_items hC hu hb hl hf).1 hok
  have hlog : ∀ p ∈ ps, (p.1.words, p.2) ∈ itemLog ps := fun p hp =>
    List.mem_map.2 ⟨p, hp, rfl⟩
  have hat : ∀ p ∈ ps, C.getByPhraseId ix n = some (some p.1.words) ↔ map[p.2]? = some n := by
    intro p hp
    have h1 := hC.total hl hf (hlog p hp)
    have h2 : C.getByPhraseId ix map[p.2] = some (some p.1.words) :=
      (hC.exact hl hf).2 ⟨p.2, hlog p hp, List.getElem?_eq_getElem h1⟩
    constructor
    · intro h3
      rw [hC.once hl hf h3 h2]
      exact List.getElem?_eq_getElem h1
    · intro h3
      exact (hC.exact hl hf).2 ⟨p.2, hlog p hp, h3⟩
  have hren : Content.run (itemCalls ps ++ [.renumber map]) ⟨n, langs⟩ =
      (List.range map.length).findSome? fun p =>
        if map[p]? = some n then Content.run (itemCalls ps) ⟨p, langs⟩ else none := by
    simp only [Content.run, List.foldl_append, List.foldl_cons, List.foldl_nil, Content.call,
      Content.renumber]
  rw [hren]
  unfold gridsOf
  split_ifs with hany
  · obtain ⟨it, hit, ht⟩ := List.any_eq_true.1 hany
    obtain ⟨p, hp, rfl⟩ := List.mem_map.1 hit
    obtain ⟨h1, h2⟩ := of_decide_eq_true ht
    have hmp := (hat p hp).1 h1
    have hcont : Content.run (itemCalls ps) ⟨p.2, langs⟩ =
        some (((ps.map Prod.fst).filter fun it => decide
          (C.getByPhraseId ix n = some (some it.words) ∧ it.langSet = langs)).flatMap
            fun it => it.grids) := by
      rw [content_itemCalls', if_pos (List.any_eq_true.2 ⟨p, hp, by simpa using h2⟩)]
      rw [List.filter_map, List.flatMap_map]
      congr 2
      apply List.filter_congr
      intro q hq
      simp only [Function.comp_apply]
      congr 1
      simp only [eq_iff_iff]
      constructor
      · rintro ⟨h3, h4⟩
        exact ⟨(hat q hq).2 (h3 ▸ hmp), h4⟩
      · rintro ⟨h3, h4⟩
        have hw : q.1.words = p.1.words := by
          rw [h1] at h3
          simpa using h3.symm
        exact ⟨hids q hq p hp hw (h4.trans h2.symm), h4⟩
    have hrest : ∀ i ∈ List.range map.length,
        (if map[i]? = some n then Content.run (itemCalls ps) ⟨i, langs⟩ else none) = none ∨
        i = p.2 := by
      intro i _
      split_ifs with hi
      · rw [content_itemCalls']
        split_ifs with hq
        · right
          obtain ⟨q, hq, h3⟩ := List.any_eq_true.1 hq
          obtain ⟨h3, h4⟩ := of_decide_eq_true h3
          simp only at h3 h4
          have h5 := (hat q hq).2 (h3 ▸ hi)
          rw [h1] at h5
          rw [← h3, hids q hq p hp (by simpa using h5.symm) (h4.trans h2.symm)]
        · exact Or.inl rfl
      · exact Or.inl rfl
    have hlt : p.2 < map.length := hC.total hl hf (hlog p hp)
    -- the search finds the row of `p`
    cases hfs : (List.range map.length).findSome? fun i =>
        if map[i]? = some n then Content.run (itemCalls ps) ⟨i, langs⟩ else none with
    | none =>
      have := List.findSome?_eq_none_iff.1 hfs p.2 (List.mem_range.2 hlt)
      rw [if_pos hmp, hcont] at this
      cases this
    | some es =>
      obtain ⟨i, hi, he⟩ := List.exists_of_findSome?_eq_some hfs
      rcases hrest i hi with h3 | rfl
      · rw [h3] at he; cases he
      · rw [if_pos hmp, hcont] at he
        exact he.symm
  · rw [List.findSome?_eq_none_iff]
    intro i _
    split_ifs with hi
    · rw [content_itemCalls']
      split_ifs with hq
      · obtain ⟨q, hq, h3⟩ := List.any_eq_true.1 hq
        obtain ⟨h3, h4⟩ := of_decide_eq_true h3
        simp only at h3 h4
        exact absurd (List.any_eq_true.2 ⟨q.1, List.mem_map_of_mem hq,
          decide_eq_true ⟨(hat q hq).2 (h3 ▸ hi), h4⟩⟩) hany
      · rfl
    · rfl

/-- C66: when the build returns, `get` with a final phrase id and languages reads exactly the grids that
were appended with the phrase the phrase index has under that id and with those languages; `undefined`
if there were none. -/
theorem C66_index (hC : FindsPhrases C) (o : IterOrder) (items : List (IndexItem P S))
    (hscore : ∀ it ∈ items, ∀ e ∈ it.grids, e.score ≤ 15) (ix : C.Index) (db : SMap Bytes Bytes)
    (h : buildIndex o items = some (ix, db)) (hsmall : SmallRecords db) (s : Store) (hs : s.db = db)
    (v : JsValue) (n langs : ℕ) (hv : KeyObject v ⟨n, langs⟩) (rest : List JsValue) :
    jsGet s (v :: rest) = some (.returned
      ((gridsOf items fun it =>
          decide (C.getByPhraseId ix n = some (some it.words) ∧ it.langSet = langs)).map
        fun es => readBack (es.map stored))) := by
  obtain ⟨cs, b, hwf, hsc, hrun, hfin, -, -, hcon⟩ := index_content hC h
  rw [jsGet_keyObject hv, C06_history_is_map_of_sets o cs hwf (hsc hscore) b hrun db hfin hsmall s hs _
    (keyObject_wf hv), hcon]
  rfl

/-- C66: if the phrase builder accepts the phrases and gives a phrase the same id every time, and no
final id is 2^32 - 1, then no call throws and the build returns. -/
theorem C66_returns (hC : FindsPhrases C) (o : IterOrder) (items : List (IndexItem P S))
    (hins : ∀ {st log w}, Logged C st log → log.map Prod.fst ++ [w] <+: items.map (·.words) →
      ∃ id, (C.insert st w).2 = some id)
    (hone : ∀ {st log}, Logged C st log → log.map Prod.fst = items.map (·.words) →
      ∀ {w a a'}, (w, a) ∈ log → (w, a') ∈ log → a = a')
    (hfin : ∀ {st log}, Logged C st log → log.map Prod.fst = items.map (·.words) →
      ∃ map ix, C.finish st = some (map, ix) ∧ 2 ^ 32 - 1 ∉ map) :
    ∃ ix db, buildIndex o items = some (ix, db) := by
  -- the loop returns
  have hloop : ∀ (ts : List (IndexItem P S)) {pst : C.State} {log} {b : Builder},
      Logged C pst log → log.map Prod.fst ++ ts.map (·.words) = items.map (·.words) →
        ∃ st, ts.foldlM indexItem (⟨some pst, none⟩, ⟨some b, []⟩) = some st := by
    intro ts
    induction ts with
    | nil => intro pst log b _ _; exact ⟨_, rfl⟩
    | cons it t ih =>
      intro pst log b hl hts
      obtain ⟨id, hid⟩ := hins hl (w := it.words) ⟨t.map (·.words), by rw [← hts]; simp⟩
      rw [List.foldlM_cons, indexItem_eq, hid]
      simp only [Option.map_some, Option.bind_eq_bind, Option.bind_some]
      exact ih (Logged.insert hl (by rw [← hid])) (by rw [← hts]; simp)
  obtain ⟨st, hst⟩ := hloop items (b := Builder.new) Logged.new (by simp)
  obtain ⟨ps, pst, b, h3, h4, h5, h6, rfl⟩ :=
    indexLoop_some items (ps := []) Logged.new rfl (by simp) hst
  have hlog : (itemLog ps).map Prod.fst = items.map (·.words) := by
    have : ps.map Prod.fst = items := by simpa using h3
    rw [← this]
    simp [itemLog, Function.comp_def]
  obtain ⟨map, ix, hf, hmax⟩ := hfin h4 hlog
  have hok := (renumber_items hC h6 h5 h4 hf).2 (by
    intro p hp q hq hw _
    refine hone h4 hlog (w := p.1.words) (List.mem_map.2 ⟨p, hp, rfl⟩) ?_
    rw [hw]
    exact List.mem_map.2 ⟨q, hq, rfl⟩)
  have hm := C.finish_u32 _ _ _ hf
  have hr := refines_run (calls_wf h6) h5
  have hrun : Builder.run (itemCalls ps ++ [.renumber map]) = some (b.renumber map).1 := by
    unfold Builder.run at h5 ⊢
    rw [runFrom_append, h5]
    simp only [Option.bind_some, Builder.runFrom, Builder.call]
    rcases hx : b.renumber map with ⟨b', r⟩
    rw [hx] at hok
    simp only at hok
    subst hok
    rfl
  have hr' := refines_run (cs := itemCalls ps ++ [.renumber map]) (by
    intro c hc
    rcases List.mem_append.1 hc with hc | hc
    · exact calls_wf h6 c hc
    · rw [List.mem_singleton.1 hc]; exact hm) hrun
  obtain ⟨db, hdb⟩ := (C11_finish_returns_partial o _ hr'.wf).2 (by
    rintro ⟨⟨q, l⟩, e⟩ hk
    have h1 := (SMap.mem_iff_find hr'.wf.sorted).1 hk
    obtain ⟨p, -, hp⟩ := (C09_renumber_moves b hr.wf map hok q l e).1 h1
    rintro rfl
    exact hmax (List.mem_of_getElem? hp))
  refine ⟨ix, db, ?_⟩
  unfold buildIndex
  unfold JsPhrases.new JsBuilder.new
  rw [hst]
  unfold finish at hdb
  simp only [Option.bind_some, jsPhraseFinish, hf, jsRenumber_buffer hm, hok, decide_true, jsFinish,
    hdb, Option.map_some]

/-- C66: a phrase builder that gives one phrase two ids makes `renumber` throw, when the phrase has
grids with the same languages under both. -/
theorem C66_two_ids_throw (hC : FindsPhrases C) (o : IterOrder) (items : List (IndexItem P S))
    (i j : ℕ) (a c : IndexItem P S) (hi : items[i]? = some a) (hj : items[j]? = some c)
    (hw : a.words = c.words) (hs : a.langSet = c.langSet)
    (htwo : ∀ {st : C.State} {log}, Logged C st log → log.map Prod.fst = items.map (·.words) →
      (log.map Prod.snd)[i]? ≠ (log.map Prod.snd)[j]?) :
    buildIndex o items = none := by
  cases h : buildIndex o items with
  | none => rfl
  | some r =>
    obtain ⟨ix, db⟩ := r
    obtain ⟨ps, pst, b, map, rfl, hl, hb, hu, hf, hok, hfin⟩ := buildIndex_some h
    have hids := (renumber_items hC hu hb hl hf).1 hok
    rw [List.getElem?_map, Option.map_eq_some_iff] at hi hj
    obtain ⟨p, hp, rfl⟩ := hi
    obtain ⟨q, hq, rfl⟩ := hj
    refine absurd ?_ (htwo hl (by simp [itemLog, Function.comp_def]))
    simp only [itemLog, List.map_map, List.getElem?_map, hp, hq, Option.map_some, Function.comp_def]
    rw [hids p (List.mem_of_getElem? hp) q (List.mem_of_getElem? hq) hw hs]

/-! ## A crate that does this -/

/-- A phrase index that keeps the phrases in a list, without repetition, up to 1000 of them; the final
ids count from the end. -/
abbrev plainPhrases : PhraseCrate where
  State := List (List String)
  Index := List (List String)
  Replacement := Unit
  Match := Unit
  new := []
  insert st w :=
    if w ∈ st then (st, some (st.idxOf w % 2 ^ 32))
    else if st.length < 1000 then (st ++ [w], some (st.length % 2 ^ 32))
    else (st, none)
  loadReplacements st _ := (st, true)
  finish st := if st.length ≤ 1000
    then some ((List.range st.length).map fun i => st.length - 1 - i, st.reverse) else none
  contains ix w _ := some (ix.contains w)
  fuzzyMatch _ _ _ _ _ := some ()
  fuzzyMatchWindows _ _ _ _ _ := some ()
  fuzzyMatchMulti _ _ _ _ := some ()
  getByPhraseId ix n := some ix[n]?
  prefixBins _ _ := some []
  insert_u32 st w id h := by
    split_ifs at h
    · cases h; exact Nat.mod_lt _ (by norm_num)
    · cases h; exact Nat.mod_lt _ (by norm_num)
  finish_u32 st map ix h n hn := by
    split_ifs at h
    cases h
    obtain ⟨i, -, rfl⟩ := List.mem_map.1 hn
    omega

theorem plainPhrases_logged {st : plainPhrases.State} {log : List (List String × ℕ)}
    (h : Logged plainPhrases st log) :
    List.Nodup (α := List String) st ∧ List.length (α := List String) st ≤ 1000 ∧
      ∀ w id, (w, id) ∈ log ↔ getElem? (coll := List (List String)) st id = some w := by
  induction h with
  | new => exact ⟨List.nodup_nil, Nat.zero_le _, fun w id => by simp⟩
  | @insert st st' log w id hl hi ih =>
    change List (List String) at st st'
    obtain ⟨h1, h2, h3⟩ := ih
    dsimp only [plainPhrases] at hi
    split_ifs at hi with hw hlt
    · have e : st.idxOf w < st.length := List.idxOf_lt_length_of_mem hw
      have e' : st.idxOf w % 2 ^ 32 = st.idxOf w := Nat.mod_eq_of_lt (by omega)
      rw [e'] at hi
      cases hi
      refine ⟨h1, h2, fun v j => ?_⟩
      rw [List.mem_append, h3]
      constructor
      · rintro (h | h)
        · exact h
        · cases List.mem_singleton.1 h
          rw [List.getElem?_eq_getElem e, List.getElem_idxOf]
      · exact Or.inl
    · have e' : st.length % 2 ^ 32 = st.length := Nat.mod_eq_of_lt (by omega)
      rw [e'] at hi
      cases hi
      refine ⟨?_, ?_, fun v j => ?_⟩
      · rw [List.nodup_append]
        refine ⟨h1, by simp, ?_⟩
        intro a ha b hb
        rw [List.mem_singleton.1 hb]
        rintro rfl
        exact hw ha
      · simp only [List.length_append, List.length_singleton]; omega
      · rw [List.mem_append, h3, List.getElem?_append]
        split_ifs with hj
        · constructor
          · rintro (h | h)
            · exact h
            · cases List.mem_singleton.1 h
              omega
          · exact Or.inl
        · rw [List.getElem?_eq_none (by omega)]
          simp only [reduceCtorEq, List.mem_singleton, Prod.mk.injEq, false_or,
            List.getElem?_singleton]
          constructor
          · rintro ⟨rfl, rfl⟩
            simp
          · intro h
            split_ifs at h with h0
            cases h
            exact ⟨rfl, by omega⟩
    · cases hi

/-- The plain index finds phrases. -/
theorem plainPhrases_finds : FindsPhrases plainPhrases := by
  have hfin : ∀ {st log map ix}, Logged plainPhrases st log → plainPhrases.finish st = some (map, ix) →
      map = (List.range (List.length (α := List String) st)).map
        (fun i => List.length (α := List String) st - 1 - i) ∧
      ix = List.reverse (α := List String) st := by
    intro st log map ix hl hf
    obtain ⟨-, h2, -⟩ := plainPhrases_logged hl
    dsimp only [plainPhrases] at hf
    rw [if_pos h2] at hf
    cases hf
    exact ⟨rfl, rfl⟩
  refine ⟨?_, ?_, ?_⟩
  · intro st log map ix hl hf w id hw
    obtain ⟨h1, h2, h3⟩ := plainPhrases_logged hl
    obtain ⟨rfl, rfl⟩ := hfin hl hf
    rw [List.length_map, List.length_range]
    exact (List.getElem?_eq_some_iff.1 ((h3 w id).1 hw)).1
  · intro st log map ix hl hf n w
    obtain ⟨h1, h2, h3⟩ := plainPhrases_logged hl
    obtain ⟨rfl, rfl⟩ := hfin hl hf
    show some (List.reverse _)[n]? = some (some w) ↔ _
    simp only [Option.some.injEq, h3, List.getElem?_map]
    constructor
    · intro h
      have hn := (List.getElem?_eq_some_iff.1 h).1
      rw [List.length_reverse] at hn
      rw [List.getElem?_reverse hn] at h
      refine ⟨_, h, ?_⟩
      rw [List.getElem?_range (by omega)]
      simp only [Option.map_some, Option.some.injEq]
      omega
    · rintro ⟨id, h, hm⟩
      have hid := (List.getElem?_eq_some_iff.1 h).1
      rw [List.getElem?_range hid] at hm
      simp only [Option.map_some, Option.some.injEq] at hm
      rw [List.getElem?_reverse (by omega), ← hm]
      rw [← h]
      congr 1
      omega
  · intro st log map ix hl hf n n' w hn hn'
    obtain ⟨h1, h2, h3⟩ := plainPhrases_logged hl
    obtain ⟨rfl, rfl⟩ := hfin hl hf
    have e : some (List.reverse (α := List String) st)[n]? = some (some w) := hn
    have e' : some (List.reverse (α := List String) st)[n']? = some (some w) := hn'
    simp only [Option.some.injEq] at e e'
    obtain ⟨l1, e1⟩ := List.getElem?_eq_some_iff.1 e
    obtain ⟨l2, e2⟩ := List.getElem?_eq_some_iff.1 e'
    exact (List.nodup_reverse.2 h1).getElem_inj_iff.1 (e1.trans e2.symm)

/-- A list of strings, and nothing else. -/
def plainWords : JsValue → Option (List String)
  | .arr l => l.mapM fun
    | .str s => some s
    | _ => none
  | _ => none

/-- A reader of arguments for a phrase index without word replacements. -/
def plainPhraseSerde (C : PhraseCrate) : PhraseSerde C where
  words := plainWords
  ending
    | .num n => if n = 0 then some 0 else if n = 1 then some 1 else if n = .fin 2 then some 2 else none
    | _ => none
  queries _ := none
  replacements _ := some []

/-- An item with one word, languages 0 and 3, and one grid. -/
def wordItem {C : PhraseCrate} (w : String) (id : ℕ)
    (h : plainSerde.entries (.arr [jsEntry id]) = some [⟨1, 3, 10, 11, id, 7⟩]) :
    IndexItem (plainPhraseSerde C) plainSerde where
  phrase := .arr [.str w]
  langs := .arr ([0, 3].map fun (i : ℕ) => .num (.fin i))
  entries := .arr [jsEntry id]
  words := [w]
  langSet := 9
  grids := [⟨1, 3, 10, 11, id, 7⟩]
  phrase_words := rfl
  langs_set := .arr [0, 3] 9 (by decide) nine_langs'
  entries_grids := h

/-- Two phrases, the first one twice. -/
def wordItems (C : PhraseCrate) : List (IndexItem (plainPhraseSerde C) plainSerde) :=
  [wordItem "main" 5 (by decide +kernel), wordItem "oak" 6 (by decide +kernel),
    wordItem "main" 7 (by decide +kernel)]

/-- C66 on these items: "main" has got the final id 1 and both its grids, "oak" the final id 0. -/
example : ∃ ix db, buildIndex (P := plainPhraseSerde plainPhrases) .id (wordItems plainPhrases) =
      some (ix, db) ∧ plainPhrases.getByPhraseId ix 1 = some (some ["main"]) ∧
    ∀ s : Store, s.db = db →
      jsGet s [jsKey 1 [3, 0]] =
        some (.returned (some [⟨1, 3, 10, 11, 7, 7⟩, ⟨1, 3, 10, 11, 5, 7⟩])) ∧
      jsGet s [jsKey 0 [3, 0]] = some (.returned (some [⟨1, 3, 10, 11, 6, 7⟩])) ∧
      jsGet s [jsKey 2 [3, 0]] = some (.returned none) ∧
      jsGet s [jsKey 1 [3]] = some (.returned none) := by
  have h : (buildIndex (P := plainPhraseSerde plainPhrases) .id (wordItems plainPhrases)).any
      (fun r => decide (r.1 = [["oak"], ["main"]] ∧ SmallRecords r.2)) = true := by
    decide +kernel
  rcases hr : buildIndex (P := plainPhraseSerde plainPhrases) .id (wordItems plainPhrases) with
    _ | ⟨ix, db⟩
  · rw [hr] at h
    cases h
  · rw [hr] at h
    obtain ⟨rfl, hsm⟩ := of_decide_eq_true h
    refine ⟨_, db, rfl, rfl, fun s hs => ?_⟩
    have hsc : ∀ it ∈ wordItems plainPhrases, ∀ e ∈ it.grids, e.score ≤ 15 := by decide +kernel
    have key := C66_index plainPhrases_finds .id (wordItems plainPhrases) hsc _ db hr hsm s hs
    refine ⟨?_, ?_, ?_, ?_⟩
    · rw [key (jsKey 1 [3, 0]) 1 9 (jsKey_means (by decide) (by decide) (by decide +kernel)) []]
      congr 2
      decide +kernel
    · rw [key (jsKey 0 [3, 0]) 0 9 (jsKey_means (by decide) (by decide) (by decide +kernel)) []]
      congr 2
      decide +kernel
    · rw [key (jsKey 2 [3, 0]) 2 9 (jsKey_means (by decide) (by decide) (by decide +kernel)) []]
      congr 2
    · rw [key (jsKey 1 [3]) 1 8 (jsKey_means (by decide) (by decide) (by decide +kernel)) []]
      congr 2

/-- C66: the plain index takes any 1000 items, so that building returns. -/
theorem plainPhrases_returns (o : IterOrder)
    (items : List (IndexItem (plainPhraseSerde plainPhrases) plainSerde)) (h : items.length ≤ 1000) :
    ∃ ix db, buildIndex o items = some (ix, db) := by
  have hlen : ∀ {st : plainPhrases.State} {log}, Logged plainPhrases st log →
      List.length (α := List String) st ≤ log.length := by
    intro st log hl
    induction hl with
    | new => exact Nat.le_refl _
    | @insert st st' log w id hl hi ih =>
      change List (List String) at st st'
      rw [List.length_append, List.length_singleton]
      dsimp only [plainPhrases] at hi
      split_ifs at hi
      · cases hi; exact Nat.le_succ_of_le ih
      · cases hi
        rw [List.length_append, List.length_singleton]
        exact Nat.succ_le_succ ih
      · cases hi
  refine C66_returns plainPhrases_finds o items ?_ ?_ ?_
  · intro st log w hl hp
    change List (List String) at st
    have h1 := hp.length_le
    have h2 := hlen hl
    simp only [List.length_append, List.length_map, List.length_singleton] at h1
    dsimp only [plainPhrases]
    split_ifs with h3 h4
    · exact ⟨_, rfl⟩
    · exact ⟨_, rfl⟩
    · exact absurd (show List.length st < 1000 by omega) h4
  · intro st log hl _ w a a' ha ha'
    obtain ⟨h1, -, h3⟩ := plainPhrases_logged hl
    rw [h3] at ha ha'
    obtain ⟨l1, e1⟩ := List.getElem?_eq_some_iff.1 ha
    obtain ⟨l2, e2⟩ := List.getElem?_eq_some_iff.1 ha'
    exact h1.getElem_inj_iff.1 (e1.trans e2.symm)
  · intro st log hl _
    obtain ⟨-, h2, -⟩ := plainPhrases_logged hl
    refine ⟨_, _, if_pos h2, fun hm => ?_⟩
    obtain ⟨i, hi, e⟩ := List.mem_map.1 hm
    omega

/-! ## A crate that gives a phrase a new id every time -/

/-- A phrase index that gives a new id at every insert; the final id of a phrase is its first one. -/
abbrev freshPhrases : PhraseCrate where
  State := List (List String)
  Index := List (List String)
  Replacement := Unit
  Match := Unit
  new := []
  insert st w := (st ++ [w], some (st.length % 2 ^ 32))
  loadReplacements st _ := (st, true)
  finish st := if st.length < 1000 then some (st.map fun w => st.idxOf w % 2 ^ 32, st) else none
  contains ix w _ := some (ix.contains w)
  fuzzyMatch _ _ _ _ _ := some ()
  fuzzyMatchWindows _ _ _ _ _ := some ()
  fuzzyMatchMulti _ _ _ _ := some ()
  getByPhraseId ix n := some (ix[n]?.filter fun w => ix.idxOf w == n)
  prefixBins _ _ := some []
  insert_u32 st w id h := by
    cases h; exact Nat.mod_lt _ (by norm_num)
  finish_u32 st map ix h n hn := by
    split_ifs at h
    cases h
    obtain ⟨w, -, rfl⟩ := List.mem_map.1 hn
    exact Nat.mod_lt _ (by norm_num)

theorem freshPhrases_logged {st : freshPhrases.State} {log : List (List String × ℕ)}
    (h : Logged freshPhrases st log) : log.map Prod.fst = st ∧
      log.map Prod.snd = (List.range log.length).map (· % 2 ^ 32) := by
  induction h with
  | new => exact ⟨rfl, rfl⟩
  | @insert st st' log w id hl hi ih =>
    change List (List String) at st st'
    obtain ⟨h1, h2⟩ := ih
    dsimp only [freshPhrases] at hi
    cases hi
    refine ⟨by rw [List.map_append, h1]; rfl, ?_⟩
    rw [List.map_append, h2, List.length_append, List.length_singleton, List.range_succ,
      List.map_append, ← h1, List.length_map]
    rfl

theorem freshPhrases_mem {st : freshPhrases.State} {log : List (List String × ℕ)}
    (h : Logged freshPhrases st log) (hs : List.length (α := List String) st < 1000)
    (w : List String) (id : ℕ) :
    (w, id) ∈ log ↔ getElem? (coll := List (List String)) st id = some w := by
  obtain ⟨rfl, h2⟩ := freshPhrases_logged h
  have hl : log.length < 1000 := by simpa using hs
  have hid : ∀ (i : ℕ) (hi : i < log.length), log[i].2 = i := by
    intro i hi
    have := congrArg (·[i]?) h2
    simp only [List.getElem?_map, List.getElem?_eq_getElem hi, Option.map_some,
      List.getElem?_range hi, Option.some.injEq] at this
    rw [this]
    exact Nat.mod_eq_of_lt (by omega)
  constructor
  · intro hm
    obtain ⟨i, hi, e⟩ := List.getElem_of_mem hm
    have h3 := hid i hi
    rw [e] at h3
    simp only at h3
    subst h3
    show (log.map Prod.fst)[id]? = _
    rw [List.getElem?_map, List.getElem?_eq_getElem hi, e]
    rfl
  · intro hm
    have hm : (log.map Prod.fst)[id]? = some w := hm
    rw [List.getElem?_map, Option.map_eq_some_iff] at hm
    obtain ⟨p, hp, rfl⟩ := hm
    obtain ⟨hi, e⟩ := List.getElem?_eq_some_iff.1 hp
    have h3 := hid id hi
    rw [e] at h3
    rw [← h3]
    exact e ▸ List.getElem_mem hi

/-- This index finds phrases, too. -/
theorem freshPhrases_finds : FindsPhrases freshPhrases := by
  have hfin : ∀ {st log map ix}, Logged freshPhrases st log →
      freshPhrases.finish st = some (map, ix) → List.length (α := List String) st < 1000 ∧
      map = List.map (α := List String) (fun w => List.idxOf (α := List String) w st) st ∧
      ix = st := by
    intro st log map ix hl hf
    change List (List String) at st
    dsimp only [freshPhrases] at hf
    split_ifs at hf with hs
    cases hf
    refine ⟨hs, List.map_congr_left fun w hw => ?_, rfl⟩
    have := List.idxOf_lt_length_of_mem hw
    exact Nat.mod_eq_of_lt (by omega)
  refine ⟨?_, ?_, ?_⟩
  · intro st log map ix hl hf w id hw
    obtain ⟨hs, rfl, rfl⟩ := hfin hl hf
    rw [List.length_map]
    exact (List.getElem?_eq_some_iff.1 ((freshPhrases_mem hl hs w id).1 hw)).1
  · intro st log map ix hl hf n w
    obtain ⟨hs, rfl, rfl⟩ := hfin hl hf
    change List (List String) at ix
    show some (Option.filter (fun w => ix.idxOf w == n) ix[n]?) = some (some w) ↔ _
    simp only [Option.some.injEq, freshPhrases_mem hl hs, List.getElem?_map,
      Option.filter_eq_some_iff, beq_iff_eq]
    constructor
    · rintro ⟨h1, h2⟩
      exact ⟨n, h1, by rw [h1, Option.map_some, h2]⟩
    · rintro ⟨id, h1, h2⟩
      rw [h1, Option.map_some, Option.some.injEq] at h2
      refine ⟨?_, h2⟩
      have hw : w ∈ ix := List.mem_of_getElem? h1
      rw [← h2, List.getElem?_eq_getElem (List.idxOf_lt_length_of_mem hw), List.getElem_idxOf]
  · intro st log map ix hl hf n n' w hn hn'
    obtain ⟨hs, rfl, rfl⟩ := hfin hl hf
    change List (List String) at ix
    have e : some (Option.filter (fun w => ix.idxOf w == n) ix[n]?) = some (some w) := hn
    have e' : some (Option.filter (fun w => ix.idxOf w == n') ix[n']?) = some (some w) := hn'
    simp only [Option.some.injEq, Option.filter_eq_some_iff, beq_iff_eq] at e e'
    exact e.2.symm.trans e'.2

/-- C66: with this index the items above make `renumber` throw. -/
example : buildIndex (P := plainPhraseSerde freshPhrases) .id (wordItems freshPhrases) = none := by
  refine C66_two_ids_throw freshPhrases_finds .id (wordItems freshPhrases) 0 2 _ _ rfl rfl rfl rfl ?_
  intro st log hl hlog
  obtain ⟨-, h2⟩ := freshPhrases_logged hl
  have hlen : log.length = 3 := by simpa [wordItems] using congrArg List.length hlog
  rw [h2, hlen]
  decide

/-- C66: distances, and a negative phrase id. -/
example : jsFuzzyWith plainPhrases.fuzzyMatch (plainPhraseSerde plainPhrases) [["oak"]]
      [.arr [.str "oka"], .num 1, .num (.fin 300), .num 0] = .returned () ∧
    jsGetByPhraseId (C := plainPhrases) [["oak"]] [.num (.fin (-7))] =
      .returned (.arr [.str "oak"]) := by
  constructor
  · exact C66_distances plainPhrases.fuzzyMatch (plainPhraseSerde plainPhrases) [["oak"]]
      (.arr [.str "oka"]) (.num 0) ["oka"] 0 rfl rfl 1 300 []
  · rw [C66_negative_id (C := plainPhrases) [["oak"]] (-7) (by norm_num) []]
    rfl

end Carmen
