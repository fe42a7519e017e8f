import Verif.Props.NativeStore
import Verif.Spec.Failed
import Verif.Spec.Directory

/-!
# C65: histories in which calls fail
-/

namespace Carmen

open Builder Spec

/-! ## What `renumber` leaves behind -/

theorem GridKey.lt_iff {a b : GridKey} :
    a < b ↔ a.phraseId < b.phraseId ∨ a.phraseId = b.phraseId ∧ a.langSet < b.langSet := by
  change a.toPair < b.toPair ↔ _
  unfold GridKey.toPair
  rw [Prod.Lex.toLex_lt_toLex]

/-- Whatever it returns, `renumber` has moved the first rows and stopped at one it cannot move, or it
has moved them all. -/
theorem renumberLoop_prefix {ids : List ℕ} (rows : List (GridKey × BuilderEntry)) :
    ∀ acc : SMap GridKey BuilderEntry, ∃ done rest, rows = done ++ rest ∧
      renumberLoop ids acc done = ((renumberLoop ids acc rows).1, .ok ()) ∧
      ((renumberLoop ids acc rows).2 = .ok () ∧ rest = [] ∨
        (renumberLoop ids acc rows).2 ≠ .ok () ∧ ∃ r t, rest = r :: t ∧
          (newKey ids r.1 = none ∨ ∃ k', newKey ids r.1 = some k' ∧
            (SMap.find k' (renumberLoop ids acc rows).1).isSome = true)) := by
  induction rows with
  | nil => intro acc; exact ⟨[], [], rfl, rfl, Or.inl ⟨rfl, rfl⟩⟩
  | cons r t ih =>
    intro acc
    obtain ⟨k, v⟩ := r
    cases hi : ids[k.phraseId]? with
    | none =>
      have e : renumberLoop ids acc ((k, v) :: t) = (acc, .error (.outOfBounds k.phraseId)) := by
        unfold renumberLoop
        simp only [hi]
      refine ⟨[], (k, v) :: t, rfl, by rw [e]; rfl, Or.inr ⟨by rw [e]; simp, _, _, rfl, Or.inl ?_⟩⟩
      unfold newKey
      rw [hi]; rfl
    | some n =>
      have hk : newKey ids k = some ⟨n, k.langSet⟩ := by
        unfold newKey
        rw [hi]; rfl
      cases hf : SMap.find ⟨n, k.langSet⟩ acc with
      | some x =>
        have e : renumberLoop ids acc ((k, v) :: t) = (acc, .error (.duplicate n)) := by
          unfold renumberLoop
          simp only [hi, hf]
        exact ⟨[], (k, v) :: t, rfl, by rw [e]; rfl, Or.inr ⟨by rw [e]; simp, _, _, rfl,
          Or.inr ⟨_, hk, by rw [e, hf]; rfl⟩⟩⟩
      | none =>
        have e : ∀ l, renumberLoop ids acc ((k, v) :: l) =
            renumberLoop ids (SMap.insert ⟨n, k.langSet⟩ v acc) l := by
          intro l
          conv_lhs => unfold renumberLoop
          simp only [hi, hf]
        obtain ⟨done, rest, h1, h2, h3⟩ := ih (SMap.insert ⟨n, k.langSet⟩ v acc)
        refine ⟨(k, v) :: done, rest, by rw [h1]; rfl, ?_, ?_⟩
        · rw [e, e]; exact h2
        · rw [e]; exact h3

/-- A builder that kept only the first of its rows holds the content below the key of the next. -/
theorem Builder.Refines.before {b : Builder} {s : Content} (hr : Refines b s)
    {done t : List (GridKey × BuilderEntry)} {r : GridKey × BuilderEntry}
    (hd : b.data = done ++ r :: t) : Refines ⟨done, b.bounds⟩ (s.before r.1) := by
  have hsort := hr.wf.sorted
  rw [hd] at hsort
  have hsort' : (done ++ r :: t).Pairwise (fun a b => a.1 < b.1) := hsort
  obtain ⟨h1, h2, h3⟩ := List.pairwise_append.1 hsort'
  have hs1 : SMap.Sorted done := h1
  have hfind : ∀ k, SMap.find k done = if k < r.1 then SMap.find k b.data else none := by
    intro k
    cases hf : SMap.find k done with
    | some e =>
      have hm := (SMap.mem_iff_find hs1).2 hf
      rw [if_pos (h3 _ hm _ List.mem_cons_self)]
      exact ((SMap.mem_iff_find hr.wf.sorted).1 (by rw [hd]; exact List.mem_append_left _ hm)).symm
    | none =>
      split_ifs with hlt
      · cases hb : SMap.find k b.data with
        | none => rfl
        | some e =>
          have hm := (SMap.mem_iff_find hr.wf.sorted).2 hb
          rw [hd] at hm
          rcases List.mem_append.1 hm with hm | hm
          · rw [(SMap.mem_iff_find hs1).1 hm] at hf; cases hf
          · rcases List.mem_cons.1 hm with rfl | hm
            · exact absurd hlt (lt_irrefl _)
            · exact absurd hlt (lt_asymm ((List.pairwise_cons.1 h2).1 _ hm))
      · rfl
  refine ⟨⟨hs1, ?_, ?_, hr.wf.bounds⟩, ?_, ?_⟩
  · intro x hx; exact hr.wf.keys x (by rw [hd]; exact List.mem_append_left _ hx)
  · intro x hx; exact hr.wf.entries x (by rw [hd]; exact List.mem_append_left _ hx)
  · intro k
    simp only [hfind, Content.before]
    split_ifs
    · exact hr.absent k
    · simp
  · intro k e es he hes
    simp only [hfind, Content.before] at he hes
    split_ifs at he hes with h
    exact hr.present k e es he hes

theorem Builder.Refines.isSome_iff {b : Builder} {s : Content} (hr : Refines b s) (k : GridKey) :
    (s k).isSome = true ↔ ∃ e, (k, e) ∈ b.data := by
  constructor
  · intro h
    cases hf : SMap.find k b.data with
    | none => rw [(hr.absent k).1 hf] at h; cases h
    | some e => exact ⟨e, (SMap.mem_iff_find hr.wf.sorted).2 hf⟩
  · rintro ⟨e, he⟩
    cases hs : s k with
    | none =>
      have h1 := (SMap.mem_iff_find hr.wf.sorted).1 he
      rw [(hr.absent k).2 hs] at h1
      cases h1
    | some es => rfl

/-- What `renumber` returns and leaves behind. -/
theorem Builder.Refines.renumber {b : Builder} {s : Content} (hr : Refines b s) {map : List ℕ}
    (hm : ∀ q ∈ map, q < 2 ^ 32) :
    ((b.renumber map).2 = .ok () ↔ ∀ k, ¬ Blocked s map k) ∧
    ∃ s', Effect s (.renumber map) s' ∧ Refines (b.renumber map).1 s' := by
  obtain ⟨done, rest, h1, h2, h3⟩ := renumberLoop_prefix (ids := map) b.data []
  have hsort : (done ++ rest).Pairwise (fun a b => a.1 < b.1) := by
    have := hr.wf.sorted
    rw [h1] at this
    exact this
  obtain ⟨hs1, hs2, hs3⟩ := List.pairwise_append.1 hsort
  have hok : (renumberLoop map [] done).2 = .ok () := by rw [h2]
  obtain ⟨-, hk1, hk2, hk3⟩ := renumberLoop_ok done SMap.sorted_nil hok
  -- no row that was moved is blocked
  have hfree : ∀ r ∈ done, ¬ Blocked s map r.1 := by
    rintro r hrd ⟨-, hb | ⟨p, hp, hps, hpm⟩⟩
    · obtain ⟨k', hk', -⟩ := hk1 r hrd
      rw [(newKey_eq_some.1 hk').1] at hb
      cases hb
    · obtain ⟨e, he⟩ := (hr.isSome_iff _).1 hps
      have hlt : (⟨p, r.1.langSet⟩ : GridKey) < r.1 := GridKey.lt_iff.2 (Or.inl hp)
      have hin : ((⟨p, r.1.langSet⟩ : GridKey), e) ∈ done := by
        rw [h1] at he
        rcases List.mem_append.1 he with he | he
        · exact he
        · exact absurd hlt (lt_asymm (hs3 r hrd _ he))
      rcases List.Pairwise.forall_of_forall_of_flip (l := done)
        (R := fun a b => a = b ∨ newKey map a.1 ≠ newKey map b.1) (fun a _ => Or.inl rfl)
        (hk2.imp (fun h => Or.inr h)) (hk2.imp (fun h => Or.inr h.symm)) hin hrd with h | h
      · rw [← h] at hlt
        exact lt_irrefl _ hlt
      · exact h (by unfold newKey; simp only; rw [hpm])
  rcases h3 with ⟨h3, hrest⟩ | ⟨h3, r, t, hrest, h4⟩
  · have hall : ∀ k, ¬ Blocked s map k := by
      intro k hk
      obtain ⟨e, he⟩ := (hr.isSome_iff k).1 hk.1
      rw [h1, hrest, List.append_nil] at he
      exact hfree _ he hk
    refine ⟨⟨fun _ => hall, fun _ => h3⟩, s.renumber map, Or.inl ⟨hall, rfl⟩, ?_⟩
    refine hr.call (c := .renumber map) hm ?_
    unfold Builder.call
    have : b.renumber map = ((b.renumber map).1, .ok ()) := Prod.ext rfl h3
    simp only
    rw [this]
  · subst hrest
    have hrb : Blocked s map r.1 := by
      refine ⟨(hr.isSome_iff _).2 ⟨r.2, by rw [h1]; simp⟩, ?_⟩
      rcases h4 with h4 | ⟨k', h4, h5⟩
      · left
        unfold newKey at h4
        exact Option.map_eq_none_iff.1 h4
      · right
        obtain ⟨e, he⟩ := Option.isSome_iff_exists.1 h5
        rw [← congrArg Prod.fst h2] at he
        rcases (hk3 k' e).1 he with he | ⟨k, hk, hkk⟩
        · simp [SMap.find] at he
        · obtain ⟨e1, e2⟩ := newKey_eq_some.1 h4
          obtain ⟨e3, e4⟩ := newKey_eq_some.1 hkk
          have hlt := GridKey.lt_iff.1 (hs3 _ hk r List.mem_cons_self)
          have hlang : k.langSet = r.1.langSet := e4.trans e2.symm
          refine ⟨k.phraseId, ?_, ?_, e3.trans e1.symm⟩
          · rcases hlt with h | h
            · exact h
            · simp only at h
              rw [hlang] at h
              exact absurd h.2 (lt_irrefl _)
          · rw [← hlang]
            exact (hr.isSome_iff k).2 ⟨e, by rw [h1]; exact List.mem_append_left _ hk⟩
    refine ⟨⟨fun h => absurd h h3, fun h => absurd hrb (h _)⟩, (s.before r.1).renumber map,
      Or.inr ⟨r.1, hrb, ?_, rfl⟩, ?_⟩
    · intro k₀ hk₀ hb
      obtain ⟨e, he⟩ := (hr.isSome_iff k₀).1 hb.1
      rw [h1] at he
      rcases List.mem_append.1 he with he | he
      · exact hfree _ he hb
      · rcases List.mem_cons.1 he with rfl | he
        · exact lt_irrefl _ hk₀
        · exact lt_asymm hk₀ ((List.pairwise_cons.1 hs2).1 _ he)
    · refine (hr.before h1).call (c := .renumber map) hm ?_
      have h5 : (⟨done, b.bounds⟩ : Builder).renumber map = ((b.renumber map).1, .ok ()) := by
        unfold Builder.renumber
        simp only [h2]
      unfold Builder.call
      simp only [h5]

/-! ## All histories -/

theorem Builder.Refines.native {b : Builder} {s : Content} (hr : Refines b s) {d : Call} (hd : d.Wf) :
    ∃ s', Effect s d s' ∧ Refines (Spec.native b d).1 s' := by
  cases d with
  | insert k es => exact ⟨_, rfl, hr.call hd rfl⟩
  | append k es => exact ⟨_, rfl, hr.call hd rfl⟩
  | compactAppend k relev score id hash tiles => exact ⟨_, rfl, hr.call hd rfl⟩
  | renumber map => exact (hr.renumber hd).2
  | loadBounds bs => exact ⟨_, rfl, hr.call hd rfl⟩

theorem Builder.Refines.runAll {b : Builder} {s : Content} (hr : Refines b s) {ds : List Call}
    (hd : ∀ d ∈ ds, d.Wf) : ∃ s', Effects s ds s' ∧ Refines (Spec.runAll b ds) s' := by
  induction ds generalizing b s with
  | nil => exact ⟨s, .nil s, hr⟩
  | cons d t ih =>
    obtain ⟨s', h1, h2⟩ := hr.native (hd d List.mem_cons_self)
    obtain ⟨s'', h3, h4⟩ := ih h2 fun d h => hd d (List.mem_cons_of_mem _ h)
    exact ⟨s'', .cons h1 h3, h4⟩

/-- What `finish` writes after any calls. -/
theorem Spec.Directory.of_calls {o : IterOrder} {ds : List Call} {db : SMap Bytes Bytes}
    (hd : ∀ d ∈ ds, d.Wf) (h : Builder.finish o (Spec.runAll Builder.new ds) = some db) : Directory db := by
  obtain ⟨_, -, hr⟩ := refines_new.runAll hd
  exact .finish hr.wf h

theorem effect_unique {s s' s'' : Content} {d : Call} (h1 : Effect s d s') (h2 : Effect s d s'') :
    s' = s'' := by
  cases d with
  | renumber map =>
    rcases h1 with ⟨h1, rfl⟩ | ⟨k, h1, h1', rfl⟩ <;> rcases h2 with ⟨h2, rfl⟩ | ⟨k₂, h2, h2', rfl⟩
    · rfl
    · exact absurd h2 (h1 _)
    · exact absurd h1 (h2 _)
    · rcases lt_trichotomy k k₂ with h | rfl | h
      · exact absurd h1 (h2' _ h)
      · rfl
      · exact absurd h2 (h1' _ h)
  | _ => exact h1.trans h2.symm

/-- C65: the calls leave exactly one content behind. -/
theorem C65_one_content {s s' s'' : Content} {ds : List Call} (h1 : Effects s ds s')
    (h2 : Effects s ds s'') : s' = s'' := by
  induction h1 with
  | nil s => cases h2; rfl
  | cons h ht ih =>
    cases h2 with
    | cons h' ht' =>
      cases effect_unique h h'
      exact ih ht'

theorem runAll_append (b : Builder) (ds es : List Call) :
    runAll b (ds ++ es) = runAll (runAll b ds) es := by
  unfold runAll
  rw [List.foldl_append]

/-- What the calls leave behind was written by some call. -/
theorem effects_entries {s s' : Content} {ds : List Call} (h : Effects s ds s')
    (P : GridEntry → Prop) (hs : ∀ k es, s k = some es → ∀ v ∈ es, P v)
    (hd : ∀ d ∈ ds, ∀ v ∈ d.entries, P v) : ∀ k es, s' k = some es → ∀ v ∈ es, P v := by
  induction h with
  | nil s => exact hs
  | @cons s s₁ s₂ c t h ht ih =>
    refine ih ?_ fun d hd' => hd d (List.mem_cons_of_mem _ hd')
    have hc := hd c List.mem_cons_self
    have hset : ∀ (q : GridKey) (l : List GridEntry), (∀ v ∈ l, P v) →
        ∀ k es, s.set q l k = some es → ∀ v ∈ es, P v := by
      intro q l hl k es hk
      unfold Content.set at hk
      split at hk
      · cases hk; exact hl
      · exact hs k es hk
    have hget : ∀ q, ∀ v ∈ (s q).getD [], P v := by
      intro q v hv
      cases hq : s q with
      | none => rw [hq] at hv; simp at hv
      | some l => rw [hq] at hv; exact hs q l hq v hv
    have hmove : ∀ (map : List ℕ) (u : Content), (∀ k es, u k = some es → ∀ v ∈ es, P v) →
        ∀ k es, u.renumber map k = some es → ∀ v ∈ es, P v := by
      intro map u hu k es hk
      unfold Content.renumber at hk
      obtain ⟨p, -, hp⟩ := List.exists_of_findSome?_eq_some hk
      split at hp
      · exact hu _ _ hp
      · cases hp
    cases c with
    | insert q l => cases h; exact hset q l hc
    | append q l =>
      cases h
      refine hset q _ fun v hv => ?_
      rcases List.mem_append.1 hv with hv | hv
      · exact hget q v hv
      · exact hc v hv
    | compactAppend q relev score id hash tiles =>
      cases h
      refine hset q _ fun v hv => ?_
      rcases List.mem_append.1 hv with hv | hv
      · exact hget q v hv
      · exact hc v hv
    | loadBounds bs => cases h; exact hs
    | renumber map =>
      rcases h with ⟨-, rfl⟩ | ⟨k₀, -, -, rfl⟩
      · exact hmove map s hs
      · refine hmove map _ ?_
        intro k es hk
        unfold Content.before at hk
        split at hk
        · exact hs k es hk
        · cases hk

/-- C65: any calls, whether they return errors or not, followed by a `finish` that returns, leave one
content behind, and every key reads back from it. -/
theorem C65_every_history (o : IterOrder) (ds : List Call) (hd : ∀ d ∈ ds, d.Wf)
    (hscore : ∀ d ∈ ds, ∀ e ∈ d.entries, e.score ≤ 15) (db : SMap Bytes Bytes)
    (hfin : finish o (runAll Builder.new ds) = some db) (hsmall : SmallRecords db) :
    ∃ s', Effects (fun _ => none) ds s' ∧ ∀ s : Store, s.db = db → ∀ k : GridKey, k.Wf →
      s.get k = some ((s' k).map fun es => readBack (es.map stored)) := by
  obtain ⟨s', h1, hr⟩ := refines_new.runAll hd
  refine ⟨s', h1, fun s hs k hk => ?_⟩
  have hf := find_finish hr.wf hfin hk
  unfold Store.get
  rw [hs, hf]
  cases hdk : SMap.find k (runAll Builder.new ds).data with
  | none =>
    rw [(hr.absent k).1 hdk]; rfl
  | some e =>
    cases hcn : s' k with
    | none => rw [(hr.absent k).2 hcn] at hdk; cases hdk
    | some es =>
      have hm := (SMap.mem_iff_find hr.wf.sorted).2 hdk
      have hmem := (SMap.mem_iff_find (finish_sorted hfin) (k := k.dbKey .singlePhrase)
        (v := encodeValue o e)).2 (by rw [hf, hdk]; rfl)
      have hes : ∀ v ∈ es, v.Wf ∧ v.score ≤ 15 :=
        effects_entries h1 (fun v => v.Wf ∧ v.score ≤ 15) (by simp)
          (fun d hdd v hv => ⟨call_entries_wf (hd d hdd) v hv, hscore d hdd v hv⟩) k es hcn
      have := decode_encode (o := o) (hr.wf.entries _ hm).1 (hr.wf.entries _ hm).2
        (hr.present k e es hdk hcn) hes (hsmall _ hmem)
      simp only [Option.map_some]
      rw [this]; rfl

/-- C65: after any calls, `renumber` returns an error exactly when some key is blocked. -/
theorem C65_renumber_fails_iff (ds : List Call) (hd : ∀ d ∈ ds, d.Wf) (map : List ℕ)
    (hm : ∀ q ∈ map, q < 2 ^ 32) {s : Content} (hs : Effects (fun _ => none) ds s) :
    (∃ e, ((runAll Builder.new ds).renumber map).2 = .error e) ↔ ∃ k, Blocked s map k := by
  obtain ⟨s', h1, hr⟩ := refines_new.runAll hd
  cases C65_one_content hs h1
  have h2 := (hr.renumber hm).1
  constructor
  · rintro ⟨e, he⟩
    by_contra hb
    rw [h2.2 fun k hk => hb ⟨k, hk⟩] at he
    cases he
  · rintro ⟨k, hk⟩
    cases hx : ((runAll Builder.new ds).renumber map).2 with
    | ok u => exact absurd hk (h2.1 (by rw [hx]) k)
    | error e => exact ⟨e, rfl⟩

/-! ## From JavaScript -/

theorem understood_step (S : Serde) (o : IterOrder) (c : JsCall) (hc : NotFinish c) :
    ∃ d, Understood S c d ∧ ∀ b db, JsBuilder.step S o ⟨some b, db⟩ c =
      some (⟨some (nativeRun b [d]).1, db⟩, ((nativeRun b [d]).2).headD false) := by
  by_cases hm : ∃ d', Means S c d'
  · obtain ⟨d, hd⟩ := hm
    exact ⟨some d, ⟨fun d' h => (Option.some.inj h) ▸ means_wf hd, fun _ => ⟨d, rfl, hd⟩⟩,
      fun b db => C49_meaning hd o b db⟩
  · rcases C49_any_arguments S o c hc with h | ⟨d, hd, h⟩
    · exact ⟨none, ⟨fun _ h => absurd h (by simp), fun h => absurd h hm⟩, h⟩
    · exact ⟨some d, ⟨fun d' h => (Option.some.inj h) ▸ hd, fun h => absurd h hm⟩, h⟩

theorem nativeRun_runAll (b : Builder) (ds : List (Option Call)) :
    (nativeRun b ds).1 = runAll b (ds.filterMap id) := by
  induction ds generalizing b with
  | nil => rfl
  | cons d t ih =>
    cases d with
    | none => exact ih b
    | some d => exact ih _

theorem understood_run (S : Serde) (o : IterOrder) (cs : List JsCall) (hc : ∀ c ∈ cs, NotFinish c) :
    ∃ ds, List.Forall₂ (Understood S) cs ds ∧ ∀ b db, JsBuilder.run S o ⟨some b, db⟩ cs =
      some (⟨some (nativeRun b ds).1, db⟩, (nativeRun b ds).2) := by
  induction cs with
  | nil => exact ⟨[], .nil, fun _ _ => rfl⟩
  | cons c t ih =>
    obtain ⟨d, h1, h2⟩ := understood_step S o c (hc c List.mem_cons_self)
    obtain ⟨ds, h3, h4⟩ := ih fun c h => hc c (List.mem_cons_of_mem _ h)
    refine ⟨d :: ds, .cons h1 h3, fun b db => ?_⟩
    unfold JsBuilder.run
    rw [h2, Option.bind_eq_bind, Option.bind_some, h4, Option.bind_eq_bind, Option.bind_some]
    cases d <;> rfl

/-- C65: from JavaScript. Any calls with any arguments, whether they throw or not, followed by a
`finish` that returns, leave behind what the calls they are taken for leave behind, and `get` reads
it. -/
theorem C65_javascript (S : Serde) (o : IterOrder) (cs : List JsCall) (hc : ∀ c ∈ cs, NotFinish c)
    (fault : DbFault) (st : JsBuilder) (oks : List Bool)
    (hrun : JsBuilder.run S o (.new []) (cs ++ [.finish fault]) = some (st, oks ++ [true]))
    (hlen : oks.length = cs.length) (hsmall : SmallRecords st.db) :
    ∃ ds s', List.Forall₂ (Understood S) cs ds ∧ oks = (nativeRun Builder.new ds).2 ∧
      finish o (runAll Builder.new (ds.filterMap id)) = some st.db ∧
      Effects (fun _ => none) (ds.filterMap id) s' ∧
      ((∀ d ∈ (ds.filterMap id), ∀ e ∈ d.entries, e.score ≤ 15) →
        ∀ s : Store, s.db = st.db → ∀ v k, KeyObject v k → ∀ rest,
          jsGet s (v :: rest) = some (.returned
            ((s' k).map fun es => readBack (es.map stored)))) := by
  obtain ⟨ds, h1, h2⟩ := understood_run S o cs hc
  rw [run_append] at hrun
  unfold JsBuilder.new at hrun
  rw [h2, Option.bind_some] at hrun
  simp only [JsBuilder.run, Option.bind_eq_bind] at hrun
  have hwf : ∀ d ∈ (ds.filterMap id), d.Wf := by
    intro d hd
    obtain ⟨i, hi, hdi⟩ := List.getElem_of_mem (show some d ∈ ds by simpa using hd)
    have := (List.forall₂_iff_get.1 h1).2 i (by rw [h1.length_eq]; exact hi) hi
    exact this.1 d hdi
  rcases hs : JsBuilder.step S o ⟨some (nativeRun Builder.new ds).1, []⟩ (.finish fault)
    with _ | ⟨st2, ok⟩
  · rw [hs] at hrun
    cases hrun
  · rw [hs] at hrun
    simp only [Option.bind_some, Option.map_some, Option.some.injEq, Prod.mk.injEq] at hrun
    obtain ⟨rfl, hoks⟩ := hrun
    obtain ⟨hoks, hok⟩ := List.append_inj hoks (by
      rw [nativeRun_map_length, hlen, h1.length_eq])
    have hfin := ((C49_finish S o fault _ []).1 _ _ hs).2.1 (by simpa using hok)
    rw [nativeRun_runAll] at hfin
    obtain ⟨s', h3, hr⟩ := refines_new.runAll hwf
    refine ⟨ds, s', h1, hoks.symm, hfin, h3, fun hscore s hsdb v k hv rest => ?_⟩
    obtain ⟨s'', h4, h5⟩ := C65_every_history o _ hwf hscore _ hfin hsmall
    cases C65_one_content h3 h4
    rw [jsGet_keyObject hv, h5 s hsdb k (keyObject_wf hv)]
    rfl

/-- JavaScript calls two of which throw. -/
example : ∃ st, JsBuilder.run plainSerde .id (.new []) (([.append [jsKey 0 [0], .arr [jsEntry 5]],
      .append [.null], .append [jsKey 1 [0], .arr [jsEntry 9]], .renumber [bufferOf [4, 4]],
      .append [jsKey 4 [0], .arr [jsEntry 7]]] : List JsCall) ++ [.finish .none]) =
        some (st, [true, false, true, false, true] ++ [true]) ∧ SmallRecords st.db ∧
      (Store.new st.db).get ⟨4, 1⟩ = some (some [⟨1, 3, 10, 11, 7, 7⟩, ⟨1, 3, 10, 11, 5, 7⟩]) := by
  have h : (JsBuilder.run plainSerde .id (.new []) (([.append [jsKey 0 [0], .arr [jsEntry 5]],
      .append [.null], .append [jsKey 1 [0], .arr [jsEntry 9]], .renumber [bufferOf [4, 4]],
      .append [jsKey 4 [0], .arr [jsEntry 7]]] : List JsCall) ++ [.finish .none])).map
        (fun r => decide (r.2 = [true, false, true, false, true] ++ [true] ∧ SmallRecords r.1.db ∧
          (Store.new r.1.db).get ⟨4, 1⟩ =
            some (some [⟨1, 3, 10, 11, 7, 7⟩, ⟨1, 3, 10, 11, 5, 7⟩]))) = some true := by
    decide +kernel
  obtain ⟨⟨st, oks⟩, h1, h2⟩ := Option.map_eq_some_iff.1 h
  obtain ⟨h2, h3, h4⟩ := of_decide_eq_true h2
  simp only at h2
  subst h2
  exact ⟨st, h1, h3, h4⟩

/-- C11 from JavaScript: a phrase id of at least 2^32 - 1 (infinity, say) is taken for 2^32 - 1, and
then `finish` never returns. -/
theorem C11_from_javascript (S : Serde) (o : IterOrder) {v e : JsValue} {es : List GridEntry}
    {x : F64} {l : ℕ} (hv : v.isObject = true) (hp : v.prop "phrase_id" = .num x)
    (hx : x = .inf false ∨ ∃ q : ℚ, x = .fin q ∧ 2 ^ 32 - 1 ≤ q)
    (hl : LangsOf (v.prop "lang_set") l) (he : S.entries e = some es) :
    JsBuilder.run S o (.new []) [.append [v, e], .finish .none] = none := by
  have hcast : castTo u32Max x = 2 ^ 32 - 1 := by
    rcases hx with rfl | ⟨q, rfl, hq⟩
    · rfl
    · unfold castTo
      have h1 : ((2 ^ 32 - 1 : ℕ) : ℤ) ≤ ⌊q⌋ := by
        rw [Int.le_floor]
        norm_num at hq ⊢
        exact hq
      unfold u32Max
      simp only
      omega
  have hk : keyArg v = some ⟨2 ^ 32 - 1, l⟩ := by
    unfold keyArg
    rw [if_pos hv, hp, langsOf_langSetOf hl]
    simp only [JsValue.number, Option.bind_eq_bind, Option.bind_some, hcast]
  have hl' := langSetOf_lt (langsOf_langSetOf hl)
  have hwf : (Builder.new.append ⟨2 ^ 32 - 1, l⟩ es).Wf :=
    wf_append wf_new ⟨by change 2 ^ 32 - 1 < _; omega, hl'⟩ (S.entries_wf _ _ he)
  have hfin : finish o (Builder.new.append ⟨2 ^ 32 - 1, l⟩ es) = none := by
    cases hf : finish o (Builder.new.append ⟨2 ^ 32 - 1, l⟩ es) with
    | none => rfl
    | some db =>
      exact absurd rfl ((C11_finish_returns_partial o _ hwf).1 ⟨db, hf⟩
        (⟨2 ^ 32 - 1, l⟩, extendEntries [] es) (by
          unfold Builder.append Builder.new SMap.upsert SMap.insert SMap.find
          simp))
  have hstep : jsAppend S [v, e] (.new []) =
      (⟨some (Builder.new.append ⟨2 ^ 32 - 1, l⟩ es), []⟩, true) := by
    unfold jsAppend prepForInsert
    simp only [List.getElem?_cons_zero, List.getElem?_cons_succ, Option.bind_eq_bind,
      Option.bind_some, he, hk, JsBuilder.modify, JsBuilder.new]
  simp only [JsBuilder.run, JsBuilder.step, Option.bind_eq_bind, Option.bind_some, hstep, jsFinish]
  rw [show finishInto o [] (Builder.new.append ⟨2 ^ 32 - 1, l⟩ es) = none from hfin]
  rfl

example : (JsValue.obj [("phrase_id", .num (.inf false)), ("lang_set", .null)]).isObject = true ∧
    LangsOf .null (2 ^ 128 - 1) ∧ plainSerde.entries (.arr [jsEntry 5]) ≠ none :=
  ⟨rfl, .null, by decide +kernel⟩

/-! ## A history with a failure -/

/-- Three phrases in two languages. The `renumber` fails at the phrase 1, which would go where 0
went; what is left is the phrase 0, moved, and the later calls go on from there. -/
def failingCalls : List Call :=
  [.append ⟨0, 1⟩ [⟨1, 3, 5, 6, 7, 8⟩], .append ⟨0, 2⟩ [⟨1, 3, 5, 6, 8, 8⟩],
    .append ⟨1, 1⟩ [⟨1, 3, 5, 6, 9, 8⟩], .append ⟨2, 1⟩ [⟨1, 3, 5, 6, 11, 8⟩],
    .renumber [4, 4, 2], .append ⟨4, 1⟩ [⟨1, 3, 5, 6, 12, 8⟩], .renumber [0, 1, 2, 3, 1]]

theorem failingCalls_wf : ∀ d ∈ failingCalls, d.Wf := by
  intro d hd
  simp only [failingCalls, List.mem_cons, List.not_mem_nil, or_false] at hd
  rcases hd with rfl | rfl | rfl | rfl | rfl | rfl | rfl <;> simp only [Call.Wf] <;> decide

/-- What is found at the end. -/
theorem C65_failing_calls :
    ((runAll Builder.new failingCalls).data.map Prod.fst = [⟨1, 1⟩, ⟨1, 2⟩]) ∧
    ∃ db, finish .id (runAll Builder.new failingCalls) = some db ∧ SmallRecords db ∧
      (Store.new db).get ⟨1, 1⟩ = some (some [⟨1, 3, 5, 6, 12, 8⟩, ⟨1, 3, 5, 6, 7, 8⟩]) ∧
      (Store.new db).get ⟨1, 2⟩ = some (some [⟨1, 3, 5, 6, 8, 8⟩]) ∧
      (Store.new db).get ⟨2, 1⟩ = some none := by
  refine ⟨by decide +kernel, ?_⟩
  have h : (finish .id (runAll Builder.new failingCalls)).map (fun db => decide (SmallRecords db ∧
      (Store.new db).get ⟨1, 1⟩ = some (some [⟨1, 3, 5, 6, 12, 8⟩, ⟨1, 3, 5, 6, 7, 8⟩]) ∧
      (Store.new db).get ⟨1, 2⟩ = some (some [⟨1, 3, 5, 6, 8, 8⟩]) ∧
      (Store.new db).get ⟨2, 1⟩ = some none)) = some true := by decide +kernel
  obtain ⟨db, h1, h2⟩ := Option.map_eq_some_iff.1 h
  exact ⟨db, h1, of_decide_eq_true h2⟩

end Carmen
