import Verif.Spec.Found
import Verif.Lemmas.FirstBest
import Verif.Props.Index
import Verif.Props.NativeCoalesce
import Verif.Props.Single
import Verif.Props.EndToEnd

/-!
# C67: what is indexed from JavaScript is found from JavaScript
-/

namespace Carmen
open Builder Spec Format

/-! ## Queries with a limit -/

/-- Whatever the limit, a query reports entries of the content only. -/
theorem query_sound (o : IterOrder) (cs : List Call) (hc : ∀ c ∈ cs, c.Wf)
    (hscore : ∀ c ∈ cs, ∀ e ∈ c.entries, e.score ≤ 15)
    (b : Builder) (hrun : Builder.run cs = some b)
    (db : SMap Bytes Bytes) (hfin : finish o b = some db) (hsmall : SmallRecords db)
    (s : Store) (hs : s.db = db) (M : KMerger) (H : Heap QueueElement.key)
    (mk : MatchKey) (opts : MatchOpts) (ho : OptsWf opts) (hn : NumbersOk opts s.radius)
    (st en : ℕ) (hp : s.fetchPlan false mk.phrase = some (st, en, .singlePhrase))
    (hst : st < 2 ^ 32) (ks : List GridKey) (hnd : ks.Nodup)
    (hks : ∀ k, k ∈ ks ↔ (Content.run cs k).isSome ∧ st ≤ k.phraseId ∧ k.phraseId < en)
    (n : ℕ) (hlim : 1 ≤ n) :
    ∃ out, s.getMatching M H false mk opts n = some out ∧
      ∀ r ∈ out, r ∈ answer (Content.run cs) opts s.radius mk.langSet ks := by
  have hb := (refines_run hc hrun).wf
  have hrows := queryRows_eq (laidOut_finish hb hfin hsmall) hs hp hst
  have hrow := rowElement_rows (m := .singlePhrase) (st := st) (en := en) (laidOut_finish hb hfin hsmall) ho
    (boxFit_false opts) hn M mk
  obtain ⟨q, dropped, out, h1, h2, h3⟩ := getMatching_rows (H := H) hrows _ hrow (Or.inl hlim)
  obtain ⟨all, g1, g2, -⟩ := getMatching_all (H := H) hrows _ hrow
    (n := max ks.length (db.filter (inRange .singlePhrase st en)).length) (le_max_right _ _)
  obtain ⟨all', g3, g4⟩ := query_content o cs hc hscore b hrun db hfin hsmall s hs M H false mk opts
    ho (boxFit_false _) hn st en hp hst ks hnd hks _ (le_max_left _ _)
  rw [g1] at g3
  cases g3
  refine ⟨out, h1, fun r hr => g4.mem_iff.1 (g2.mem_iff.2 ?_)⟩
  have hr' := h3.perm.mem_iff.1 hr
  rw [List.mem_flatten] at hr'
  obtain ⟨l, hl, hrl⟩ := hr'
  obtain ⟨el, hel, rfl⟩ := List.mem_map.1 hl
  have hel' : el ∈ q ++ dropped := List.mem_append_left _ hel
  have hall := h2.perm.mem_iff.1 hel'
  obtain ⟨x, hx, hxe⟩ := List.mem_filterMap.1 hall
  rw [elemOf_stream hxe] at hrl
  obtain ⟨y, hy, rfl⟩ := List.mem_map.1 hx
  exact List.mem_flatMap.2 ⟨y, hy, hrl⟩

/-! ## Queries of an index -/

variable {C : PhraseCrate} {P : PhraseSerde C} {S : Serde}

theorem gridsOf_isSome {items : List (IndexItem P S)} {test : IndexItem P S → Bool} :
    (gridsOf items test).isSome ↔ ∃ it ∈ items, test it = true := by
  unfold gridsOf
  rw [← List.any_eq_true]
  split_ifs with h
  · simp [h]
  · simp [h]

theorem mem_gridsOf {items : List (IndexItem P S)} {test : IndexItem P S → Bool} {e : GridEntry} :
    e ∈ (gridsOf items test).getD [] ↔ ∃ it ∈ items, test it = true ∧ e ∈ it.grids := by
  unfold gridsOf
  split_ifs with h
  · simp only [Option.getD_some, List.mem_flatMap, List.mem_filter, and_assoc]
  · simp only [Option.getD_none, List.not_mem_nil, false_iff]
    rintro ⟨it, hit, ht, -⟩
    exact h (List.any_eq_true.2 ⟨it, hit, ht⟩)

theorem jsOpen_some {T : SearchSerde} {db : SMap Bytes Bytes} {args : List JsValue} {s : Store}
    (h : jsOpen T db args = some s) :
    ∃ zoom typeId radius bboxes maxScore, s = Store.openWith db zoom typeId radius bboxes maxScore := by
  unfold jsOpen at h
  split at h
  · obtain ⟨o, -, rfl⟩ := Option.map_eq_some_iff.1 h
    exact ⟨_, _, _, _, _, rfl⟩
  · cases h
    exact ⟨_, _, _, _, _, rfl⟩
  · cases h

theorem length_le_of_nodup_subset {α : Type} {l l' : List α} (h : l.Nodup) (hs : l ⊆ l') :
    l.length ≤ l'.length := (h.subperm hs).length_le

/-- What queries of an opened index report: with room for all items with a phrase that is asked for,
exactly their grids, in the box; with less room nothing else. -/
theorem opened_query (hC : FindsPhrases C) {T : SearchSerde} {items : List (IndexItem P S)}
    {ix : C.Index} {s : Store} (h : Opened T items ix s) (M : KMerger) (H : Heap QueueElement.key)
    (key : MatchKey) (hkey : key.phrase.start < 2 ^ 32) (opts : MatchOpts) (ho : OptsWf opts)
    (hz : opts.zoom ≤ 16) :
    ∃ all, (∀ n, (wanted ix key.phrase items).length ≤ n →
        ∃ out, s.getMatching M H false key opts n = some out ∧ out.Perm all) ∧
      (∀ n, 1 ≤ n → ∃ out, s.getMatching M H false key opts n = some out ∧ ∀ g ∈ out, g ∈ all) ∧
      (∀ g, g ∈ all ↔ ItemHit ix items opts s.radius key g) ∧
      all.length ≤ ((wanted ix key.phrase items).flatMap fun it => it.grids).length := by
  classical
  obtain ⟨o, db, args, hbuild, hsmall, hopen⟩ := h.built
  obtain ⟨cs, b, hwf, hsc, hrun, hfin, hbounds, honce, hcon⟩ := index_content hC hbuild
  have hr := refines_run hwf hrun
  obtain ⟨zoom, typeId, radius, bboxes, maxScore, hs⟩ := jsOpen_some hopen
  have hdb : s.db = db := by rw [hs]; rfl
  have hsb : s.bounds = [] := by
    rw [hs, C14_boundaries_survive o b (by rw [hbounds]; simp) db hfin, hbounds]
  have hn : NumbersOk opts s.radius := fun _ => ⟨hz, h.radius⟩
  have hks := keysFor_exists hwf hrun key.phrase
  generalize (b.data.map Prod.fst).filter
    (fun k => decide (InPhrase key.phrase k.phraseId)) = ks at hks
  obtain ⟨st, en, hplan, hst, hks'⟩ : ∃ st en, s.fetchPlan false key.phrase =
      some (st, en, .singlePhrase) ∧ st < 2 ^ 32 ∧
      ∀ k, k ∈ ks ↔ (Content.run cs k).isSome ∧ st ≤ k.phraseId ∧ k.phraseId < en := by
    obtain ⟨phrase, lang⟩ := key
    cases phrase with
    | range st en =>
      refine ⟨st, en, ?_, hkey, hks.2⟩
      simp only [Store.fetchPlan, hsb, List.not_mem_nil, false_and, if_false]
    | exact p =>
      refine ⟨p, (p + 1) % 2 ^ 32, rfl, hkey, fun k => ?_⟩
      have hp : p < 2 ^ 32 := hkey
      rw [hks.2 k]
      refine and_congr_right fun hk => ?_
      rw [content_isSome_iff hwf hrun] at hk
      have hne := no_max_phrase hr.wf hfin hk
      show k.phraseId = p ↔ _
      by_cases hmax : p = 2 ^ 32 - 1
      · subst hmax
        constructor
        · intro h; exact absurd h hne
        · rintro ⟨_, h⟩; norm_num at h
      · rw [Nat.mod_eq_of_lt (by omega)]
        omega
  have hsc := hsc h.scores
  -- the keys are those of the items
  have hcon' : ∀ k : GridKey, Content.run cs k = gridsOf items fun it =>
      decide (C.getByPhraseId ix k.phraseId = some (some it.words) ∧ it.langSet = k.langSet) :=
    fun k => hcon k.phraseId k.langSet
  have hkit : ∀ k, k ∈ ks ↔ InPhrase key.phrase k.phraseId ∧ ∃ it ∈ items,
      C.getByPhraseId ix k.phraseId = some (some it.words) ∧ it.langSet = k.langSet := by
    intro k
    rw [hks.2 k, hcon', gridsOf_isSome, and_comm]
    simp only [decide_eq_true_eq]
  have hmem : ∀ k e, e ∈ (Content.run cs k).getD [] ↔ ∃ it ∈ items,
      (C.getByPhraseId ix k.phraseId = some (some it.words) ∧ it.langSet = k.langSet) ∧
        e ∈ it.grids := by
    intro k e
    rw [hcon', mem_gridsOf]
    simp only [decide_eq_true_eq]
  -- a list of ids
  let idOf : List String → ℕ := fun w =>
    if hw : ∃ n, C.getByPhraseId ix n = some (some w) then hw.choose else 0
  have hid : ∀ n w, C.getByPhraseId ix n = some (some w) → idOf w = n := by
    intro n w hn
    have hw : ∃ n, C.getByPhraseId ix n = some (some w) := ⟨n, hn⟩
    simp only [idOf, dif_pos hw]
    exact honce _ _ _ hw.choose_spec hn
  have hlen : ks.length ≤ (wanted ix key.phrase items).length := by
    rw [← List.length_map (f := fun it : IndexItem P S => (⟨idOf it.words, it.langSet⟩ : GridKey))]
    refine length_le_of_nodup_subset hks.1 fun k hk => ?_
    obtain ⟨h1, it, hit, h2, h3⟩ := (hkit k).1 hk
    refine List.mem_map.2 ⟨it, List.mem_filter.2 ⟨hit, decide_eq_true ⟨_, h1, h2⟩⟩, ?_⟩
    rw [hid _ _ h2, h3]
  refine ⟨answer (Content.run cs) opts s.radius key.langSet ks, ?_, ?_, ?_, ?_⟩
  · intro n hlim
    exact query_content o cs hwf hsc b hrun db hfin hsmall s hdb M H false key opts ho
      (boxFit_false _) hn st en hplan hst ks hks.1 hks' n (hlen.trans hlim)
  · intro n hlim
    exact query_sound o cs hwf hsc b hrun db hfin hsmall s hdb M H key opts ho hn st en hplan hst ks
      hks.1 hks' n hlim
  · intro g
    unfold answer
    simp only [List.mem_flatMap, List.mem_map, List.mem_filter, decide_eq_true_eq, mem_readBack]
    constructor
    · rintro ⟨k, hk, x, ⟨⟨e, he, rfl⟩, hbox⟩, rfl⟩
      obtain ⟨it, hit, ⟨h1, h2⟩, he'⟩ := (hmem k e).1 he
      exact ⟨it, hit, ⟨_, ((hkit k).1 hk).1, h1⟩, e, he', hbox, by rw [h2]⟩
    · rintro ⟨it, hit, ⟨n, hn1, hn2⟩, e, he, hbox, rfl⟩
      exact ⟨⟨n, it.langSet⟩, (hkit _).2 ⟨hn1, it, hit, hn2, rfl⟩, stored e,
        ⟨⟨e, (hmem _ _).2 ⟨it, hit, ⟨hn2, rfl⟩, he⟩, rfl⟩, hbox⟩, rfl⟩
  · let pairs : List (GridKey × GridEntry) := ks.flatMap fun k =>
      (readBack (((Content.run cs k).getD []).map stored)).map fun e => (k, e)
    have hnd : pairs.Nodup := by
      refine List.nodup_flatMap.2 ⟨fun k _ => ?_, ?_⟩
      · refine List.Nodup.map (fun a b hab => (Prod.mk.inj hab).2) ?_
        exact (List.perm_insertionSort _ _).nodup_iff.2 (List.nodup_dedup _)
      · refine hks.1.imp fun hab => ?_
        intro x hx hx'
        obtain ⟨e, -, rfl⟩ := List.mem_map.1 hx
        obtain ⟨e', -, he'⟩ := List.mem_map.1 hx'
        exact hab (Prod.mk.inj he').1.symm
    have hsub : pairs ⊆ (wanted ix key.phrase items).flatMap fun it =>
        it.grids.map fun e => ((⟨idOf it.words, it.langSet⟩ : GridKey), stored e) := by
      intro x hx
      obtain ⟨k, hk, hx⟩ := List.mem_flatMap.1 hx
      obtain ⟨e', he, rfl⟩ := List.mem_map.1 hx
      obtain ⟨e, he0, rfl⟩ := List.mem_map.1 (mem_readBack.1 he)
      obtain ⟨it, hit, ⟨h1, h2⟩, he'⟩ := (hmem k e).1 he0
      refine List.mem_flatMap.2 ⟨it, List.mem_filter.2 ⟨hit, decide_eq_true
        ⟨_, ((hkit k).1 hk).1, h1⟩⟩, List.mem_map.2 ⟨e, he', ?_⟩⟩
      rw [hid _ _ h1, h2]
    refine le_trans ?_ ((length_le_of_nodup_subset hnd hsub).trans (le_of_eq ?_))
    · simp only [answer, pairs, List.length_flatMap, List.length_map]
      refine List.sum_le_sum fun k _ => List.length_filter_le _ _
    · simp only [List.length_flatMap, List.length_map]

/-- C67: a query of an index with a limit of at least the number of items whose phrase is asked for
reports exactly the grids of those items that lie in the box, each no more often than it was given. -/
theorem C67_query (hC : FindsPhrases C) {T : SearchSerde} {items : List (IndexItem P S)}
    {ix : C.Index} {s : Store} (h : Opened T items ix s) (M : KMerger) (H : Heap QueueElement.key)
    (key : MatchKey) (hkey : key.phrase.start < 2 ^ 32) (opts : MatchOpts) (ho : OptsWf opts)
    (hz : opts.zoom ≤ 16) (n : ℕ) (hn : (wanted ix key.phrase items).length ≤ n) :
    ∃ out, s.getMatching M H false key opts n = some out ∧
      (∀ g, g ∈ out ↔ ItemHit ix items opts s.radius key g) ∧
      out.length ≤ ((wanted ix key.phrase items).flatMap fun it => it.grids).length := by
  obtain ⟨all, h1, -, h3, h4⟩ := opened_query hC h M H key hkey opts ho hz
  obtain ⟨out, ho1, ho2⟩ := h1 n hn
  exact ⟨out, ho1, fun g => by rw [ho2.mem_iff, h3], by rw [ho2.length_eq]; exact h4⟩

/-- C67: whatever the limit, a query of an index reports grids of items whose phrase is asked for, in
the box, and nothing else. -/
theorem C67_nothing_else (hC : FindsPhrases C) {T : SearchSerde} {items : List (IndexItem P S)}
    {ix : C.Index} {s : Store} (h : Opened T items ix s) (M : KMerger) (H : Heap QueueElement.key)
    (key : MatchKey) (hkey : key.phrase.start < 2 ^ 32) (opts : MatchOpts) (ho : OptsWf opts)
    (hz : opts.zoom ≤ 16) (n : ℕ) (hn : 1 ≤ n) :
    ∃ out, s.getMatching M H false key opts n = some out ∧
      ∀ g ∈ out, ItemHit ix items opts s.radius key g := by
  obtain ⟨all, -, h2, h3, -⟩ := opened_query hC h M H key hkey opts ho hz
  obtain ⟨out, ho1, ho2⟩ := h2 n hn
  exact ⟨out, ho1, fun g hg => (h3 g).1 (ho2 g hg)⟩

/-! ## One phrase match -/

theorem runAll_of_runFrom {b b' : Builder} {cs : List Call} (h : b.runFrom cs = some b') :
    runAll b cs = b' := by
  induction cs generalizing b with
  | nil => exact Option.some.inj h
  | cons c t ih =>
    simp only [Builder.runFrom, Option.bind_eq_some_iff] at h
    obtain ⟨b1, h1, h2⟩ := h
    have : (native b c).1 = b1 := by
      cases c with
      | renumber map =>
        simp only [Builder.call] at h1
        simp only [native]
        rcases hx : b.renumber map with ⟨x, r⟩
        rw [hx] at h1
        cases r with
        | ok u => cases u; exact Option.some.inj h1
        | error e => cases h1
      | _ => exact Option.some.inj h1
    show runAll (native b c).1 t = b'
    rw [this]
    exact ih h2

theorem Spec.Opened.fit (hC : FindsPhrases C) {T : SearchSerde} {items : List (IndexItem P S)}
    {ix : C.Index} {s : Store} (h : Opened T items ix s) : StoreFit s := by
  obtain ⟨o, db, args, hbuild, hsmall, hopen⟩ := h.built
  obtain ⟨cs, b, hwf, -, hrun, hfin, -⟩ := index_content hC hbuild
  obtain ⟨zoom, typeId, radius, bboxes, maxScore, hs⟩ := jsOpen_some hopen
  have hdb : s.db = db := by rw [hs]; rfl
  exact ⟨(Directory.of_calls hwf (by rw [runAll_of_runFrom hrun, hdb]; exact hfin)).laidOut
    (by rw [hdb]; exact hsmall), h.radius, h.zoom⟩

theorem SearchSerde.optsWf {T : SearchSerde} {v : JsValue} {o : MatchOpts} (h : T.opts v = some o) :
    OptsWf o :=
  ⟨fun b hb => ⟨((T.opts_wf _ _ h).2.2 b hb).2.2.1, ((T.opts_wf _ _ h).2.2 b hb).2.2.2⟩,
    fun p hp => (T.opts_wf _ _ h).2.1 p hp⟩

/-- The contexts of a single phrase match are made from results of its query. -/
theorem single_made {env : Env} {os : ℕ → IterOrder} {q : Subquery} {k : KeyWithId}
    (hk : q.matchKeys.head? = some k) {opts : MatchOpts} {grids : List MatchEntry}
    (hg : env.query q.store k.key opts 80 = some grids) {out : List Context}
    (hout : coalesce env os [q] opts = some out) :
    ∀ c ∈ out, ∃ g ∈ grids, ∃ e, c = ⟨q.mask, g.entry.relev * q.weight, [e]⟩ ∧ MadeFrom q g e := by
  obtain ⟨cs, hcs, hsub, -⟩ := mem_allContexts hout
  have hcs : coalesceSingle env (os 0) q opts = some cs := hcs
  unfold coalesceSingle at hcs
  rw [Option.bind_eq_bind, Option.bind_eq_some_iff] at hcs
  obtain ⟨m, hm, hcs⟩ := hcs
  cases hcs
  unfold singleFeatures at hm
  rw [hk] at hm
  have hg' : env.query q.store k.key opts (2 * maxContexts) = some grids := hg
  simp only [Option.bind_eq_bind, Option.bind_some, hg', Option.bind_eq_some_iff] at hm
  obtain ⟨s, hloop, hm⟩ := hm
  cases hm
  have hcol : Collected (fun e => ∃ g ∈ grids, e = toEntry g q 0) s.coalesced := by
    refine singleLoop_induct (P := fun s => Collected (fun e => ∃ g ∈ grids, e = toEntry g q 0)
      s.coalesced) ?_ ?_ hloop
    · intro s g e hs hgm he
      exact hs.record ⟨g, hgm, mkEntry_some he⟩
    · exact ⟨HMap.wf_nil, by simp [SingleState.init], by simp [SingleState.init]⟩
  intro c hc
  have hc := List.mem_of_mem_take (hsub c hc)
  rw [(List.perm_insertionSort _ _).mem_iff] at hc
  obtain ⟨p, hp, rfl⟩ := List.mem_map.1 hc
  obtain ⟨g, hgm, hge⟩ := hcol.made p ((IterOrder.perm _ _).mem_iff.1 hp)
  refine ⟨g, hgm, p.2, ?_, ?_⟩
  · rw [hge]; rfl
  · rw [hge]; exact ⟨rfl, rfl, rfl, rfl, rfl, rfl, rfl, rfl, rfl, tmpIdOf_eq _ _, rfl, rfl⟩

theorem idChanges_le (p : ℕ) (l : List ℕ) : idChanges p l ≤ l.length := by
  induction l generalizing p with
  | nil => simp [idChanges]
  | cons a t ih =>
    have := ih a
    simp only [idChanges, List.length_cons]
    split_ifs <;> omega

/-- C67: `coalesce` from JavaScript with one phrase match on an index built from JavaScript. What comes
back are grids of items whose phrase is asked for. If at most 80 items have such a phrase, a grid of
such an item that is less than 0.25 below the best one is returned, or another of the same feature that
is at least as good; or 40 contexts at least as good are; or the items have more than 80 grids and
everything that comes back (something does) is at least as good. -/
theorem C67_single (hC : FindsPhrases C) {T : SearchSerde} {items : List (IndexItem P S)}
    {ix : C.Index} {env : Env} (henv : env.chk = false) (os : ℕ → IterOrder)
    {v : JsValue} {q : Subquery} {k : KeyWithId} {text : String}
    (hv : MatchObject T.toSerde v q k text) (h : Opened T items ix q.store)
    {o : JsValue} {opts : MatchOpts} (ho : T.opts o = some opts) (hz : opts.zoom ≤ 16)
    (rest : List JsValue) :
    ∃ out, jsCoalesce T env os (.arr [v] :: o :: .func :: rest) = .returned (some out) ∧
      (∀ c ∈ out, ∃ g, ItemHit ix items opts q.store.radius k.key g ∧
        ∃ e, c = ⟨q.mask, g.entry.relev * q.weight, [e]⟩ ∧ MadeFrom q g e) ∧
      ((wanted ix k.key.phrase items).length ≤ 80 →
        q.weight.Valid → .fin (1 / 2 ^ 40) ≤ q.weight → q.weight ≤ 1 →
        (opts.proximity ≠ none → ∀ it ∈ wanted ix k.key.phrase items,
          langMatches k.key.langSet it.langSet = true) →
        (∀ g, ItemHit ix items opts q.store.radius k.key g → g.entry.id ≠ 0 ∨ 0 < g.scoredist) →
        ∀ g, ItemHit ix items opts q.store.radius k.key g →
        (∀ g', ItemHit ix items opts q.store.radius k.key g' →
          F64.flt (g'.entry.relev * q.weight - g.entry.relev * q.weight) (lit 0.25) = true) →
        (∃ c ∈ out, ∃ r, ItemHit ix items opts q.store.radius k.key r ∧
          r.entry.id = g.entry.id ∧ MadeFrom q r c.first ∧ AtLeastAsGood q g c) ∨
        (out.length = 40 ∧ ∀ c ∈ out, AtLeastAsGood q g c) ∨
        (80 < ((wanted ix k.key.phrase items).flatMap fun it => it.grids).length ∧ out ≠ [] ∧
          ∀ c ∈ out, AtLeastAsGood q g c ∧ (opts.proximity ≠ none → Better q g c))) := by
  have how := SearchSerde.optsWf ho
  have hkey : k.key.phrase.start < 2 ^ 32 := T.phrase_wf _ _ hv.matchPhrase
  have hkh : q.matchKeys.head? = some k := by rw [hv.one]; rfl
  have hfit : RequestFit env.chk [q] opts := by
    rw [henv]
    refine ⟨?_, ?_, ?_, how, hz, ?_, ?_⟩
    · intro q' hq'
      rw [List.mem_singleton.1 hq']
      exact h.fit hC
    · intro q' hq'
      rw [List.mem_singleton.1 hq', hv.one]; simp
    · intro q' hq' k' hk'
      rw [List.mem_singleton.1 hq', hv.one] at hk'
      rw [List.mem_singleton.1 hk']
      exact ⟨hkey, by simp, by simp⟩
    · intro h; cases h
    · intro h; cases h
  obtain ⟨out, hout⟩ := C60_coalesce hfit (by simp) (by rw [henv]; simp) os
  have hjs : jsCoalesce T env os (.arr [v] :: o :: .func :: rest) = .returned (some out) := by
    have := requestArgs_of (items := [v]) (qs := [q])
      (List.Forall₂.cons ⟨k, text, hv⟩ .nil) ho rest
    unfold jsCoalesce
    rw [this]
    simp only [hout]
  obtain ⟨all, h1, h2, h3, h4⟩ := opened_query hC h env.merger env.rows k.key hkey opts how hz
  refine ⟨out, hjs, ?_, ?_⟩
  · obtain ⟨grids, hg, hsub⟩ := h2 80 (by decide)
    intro c hc
    have hg' : env.query q.store k.key opts 80 = some grids := by
      unfold Env.query; rw [henv]; exact hg
    obtain ⟨g, hgm, e, he⟩ := single_made hkh hg' hout c hc
    exact ⟨g, (h3 g).1 (hsub g hgm), e, he⟩
  · intro hroom hwv hlo hhi hlang hzero g hhit hclose
    obtain ⟨grids, hg, hperm⟩ := h1 80 hroom
    have hg' : env.query q.store k.key opts 80 = some grids := by
      unfold Env.query; rw [henv]; exact hg
    have hmem : ∀ g, g ∈ grids ↔ ItemHit ix items opts q.store.radius k.key g := fun g => by
      rw [hperm.mem_iff, h3]
    obtain ⟨ord, db, args, hbuild, hsmall, hopen⟩ := h.built
    obtain ⟨cs, b, hwf, -, hrun, hfin, -⟩ := index_content hC hbuild
    obtain ⟨zoom, typeId, radius, bboxes, maxScore, hs⟩ := jsOpen_some hopen
    have hdb : q.store.db = db := by rw [hs]; rfl
    have := C62_single_best ord b (refines_run hwf hrun).wf db hfin hsmall env os q hdb k hkh hkey opts
      how (fun _ => ⟨hz, h.radius⟩) hwv hlo hhi grids hg' ?_ ?_ out hout g ((hmem g).2 hhit)
      (fun g' hg' => hclose g' ((hmem g').1 hg'))
    · rcases this with ⟨c, hc, r, hr, h5⟩ | h5 | ⟨h5, h6⟩
      · exact Or.inl ⟨c, hc, r, (hmem r).1 hr, h5⟩
      · exact Or.inr (Or.inl h5)
      · refine Or.inr (Or.inr ⟨?_, h6⟩)
        have h7 := idChanges_le 0 (grids.map (·.entry.id))
        rw [List.length_map, hperm.length_eq] at h7
        omega
    · refine sameSide_of_lang fun hp g hgm => ?_
      obtain ⟨it, hit, hw, e, -, -, rfl⟩ := (hmem g).1 hgm
      exact hlang hp it (List.mem_filter.2 ⟨hit, by simpa using hw⟩)
    · intro g hgh
      exact hzero g ((hmem g).1 (List.mem_of_mem_head? hgh))

/-! ## Stacks of phrase matches -/

theorem lookupOpts_release {env : Env} (henv : env.chk = false) {opts : MatchOpts} (how : OptsWf opts)
    (hz : opts.zoom ≤ 16) {q : Subquery} (hq : q.store.zoom ≤ 16) (kg : KeyWithId) :
    lookupOpts env opts q kg = some (keyLookup opts q kg) ∧ OptsWf (keyLookup opts q kg) ∧
      (keyLookup opts q kg).zoom ≤ 16 := by
  have hfit : OptsFit env.chk opts := by
    rw [henv]
    exact ⟨how, hz, nofun, nofun⟩
  have hw := adjustToZoom_wf how q.store.zoom
  have hzo := adjustToZoom_zoom opts q.store.zoom
  obtain ⟨o', h1, -, -, rfl⟩ := adjust_fit hfit hq (by rw [henv]; nofun)
  unfold lookupOpts keyLookup
  rw [h1, henv]
  cases kg.nearbyOnly with
  | false => exact ⟨rfl, hw, by rw [if_neg (by simp), hzo]; exact hq⟩
  | true =>
    refine ⟨rfl, withNearbyOnly_wf hw, ?_⟩
    rw [if_pos rfl, withNearbyOnly_zoom, hzo]
    exact hq

theorem keyLookup_proximity {opts : MatchOpts} (h : opts.proximity = none) (q : Subquery)
    (kg : KeyWithId) : (keyLookup opts q kg).proximity = none := by
  have h1 : (opts.adjustToZoom q.store.zoom).proximity = none := by
    unfold MatchOpts.adjustToZoom
    split_ifs
    · exact h
    · simp [h]
  unfold keyLookup
  split_ifs
  · unfold MatchOpts.withNearbyOnly
    rw [h1]
    exact h1
  · exact h1

/-- A grid that was indexed gives a first answer for its tile and feature. -/
theorem firstAnswer_of_indexed (hC : FindsPhrases C) {T : SearchSerde} {src : Subquery → Source P S}
    {env : Env} (henv : env.chk = false) {opts : MatchOpts} (how : OptsWf opts) (hz : opts.zoom ≤ 16)
    {h : Hit} (hopen : Opened T (src h.q).items (src h.q).ix h.q.store) (hfew : FewGrids src h.q)
    (hkey : h.kg.key.phrase.start < 2 ^ 32) (hi : Indexed src opts h) :
    ∃ h', SamePlace h' h ∧ Indexed src opts h' ∧ h'.FirstAnswer env opts ∧
      h.grid.entry.relev ≤ h'.grid.entry.relev := by
  obtain ⟨hl1, hl2, hl3⟩ := lookupOpts_release henv how hz hopen.zoom h.kg
  obtain ⟨hf1, hf2⟩ := hfew h.kg hi.1
  obtain ⟨grids, hg, hmem, hlen⟩ := C67_query hC hopen env.merger env.rows h.kg.key hkey _ hl2 hl3
    100000 hf1
  have hg' : env.query h.q.store h.kg.key (keyLookup opts h.q h.kg) 100000 = some grids := by
    unfold Env.query; rw [henv]; exact hg
  have hin := (hmem h.grid).2 hi.2
  let p : MatchEntry → Bool := fun g => decide (g.entry.x = h.grid.entry.x ∧
    g.entry.y = h.grid.entry.y ∧ g.entry.id = h.grid.entry.id)
  cases hf : grids.find? p with
  | none =>
    have := List.find?_eq_none.1 hf _ hin
    simp [p] at this
  | some g =>
    obtain ⟨hp, before, after, hb, hfirst⟩ := List.find?_eq_some_iff_append.1 hf
    obtain ⟨hx, hy, hid⟩ := of_decide_eq_true hp
    have hgm : g ∈ grids := by rw [hb]; simp
    refine ⟨⟨h.q, h.kg, g⟩, ⟨rfl, rfl, hx, hy, hid⟩, ⟨hi.1, (hmem g).1 hgm⟩,
      ⟨hi.1, _, before, after, hl1, by rw [← hb]; exact hg', ?_, ?_⟩, ?_⟩
    · have : grids.length ≤ 100000 := hlen.trans hf2
      rw [hb, List.length_append, List.length_cons] at this
      omega
    · intro a ha
      have := hfirst a ha
      simp only [p, Bool.not_eq_true', decide_eq_false_iff_not] at this
      show ¬ (a.entry.x = g.entry.x ∧ a.entry.y = g.entry.y ∧ a.entry.id = g.entry.id)
      rw [hx, hy, hid]
      exact this
    · obtain ⟨ord, db, args, hbuild, hsmall, hop⟩ := hopen.built
      obtain ⟨cs, b, hwf, -, hrun, hfin, -⟩ := index_content hC hbuild
      obtain ⟨zoom, typeId, radius, bboxes, maxScore, hs⟩ := jsOpen_some hop
      have hdb : h.q.store.db = db := by rw [hs]; rfl
      have hsorted := C22_relevance_partial db (laidOut_finish (refines_run hwf hrun).wf hfin hsmall)
        h.q.store hdb env.merger env.rows false h.kg.key hkey _ hl2 (fun _ => ⟨hl3, hopen.radius⟩)
        100000 (by decide) grids hg
      rw [hb] at hsorted hin
      refine first_is_best hsorted ?_ hin ⟨hx, hy, hid⟩
      intro a ha
      have := hfirst a ha
      simp only [p, Bool.not_eq_true', decide_eq_false_iff_not] at this
      rw [hx, hy, hid]
      exact this

theorem forall₂_of_forall {α β : Type} {R : α → β → Prop} {l : List α}
    (h : ∀ a ∈ l, ∃ b, R a b) : ∃ l', List.Forall₂ R l l' := by
  induction l with
  | nil => exact ⟨[], .nil⟩
  | cons a t ih =>
    obtain ⟨b, hb⟩ := h a List.mem_cons_self
    obtain ⟨l', hl'⟩ := ih fun a ha => h a (List.mem_cons_of_mem _ ha)
    exact ⟨b :: l', .cons hb hl'⟩

theorem forall₂_map_eq {α β γ : Type} {R : α → β → Prop} {f : α → γ} {g : β → γ} {l : List α}
    {l' : List β} (h : List.Forall₂ R l l') (hfg : ∀ a b, R a b → f a = g b) :
    l.map f = l'.map g := by
  induction h with
  | nil => rfl
  | cons h _ ih => simp only [List.map_cons, hfg _ _ h, ih]

theorem Spec.AnyRequest.keys {T : SearchSerde} {src : Subquery → Source P S} {values : List JsValue}
    {qs : List Subquery} {o : JsValue} {opts : MatchOpts} (h : AnyRequest T src values qs o opts)
    {q : Subquery} (hq : q ∈ qs) : ∃ k, q.matchKeys = [k] ∧ k.key.phrase.start < 2 ^ 32 := by
  obtain ⟨i, hi, rfl⟩ := List.getElem_of_mem hq
  obtain ⟨k, text, hv⟩ := (List.forall₂_iff_get.1 h.objects).2 i
    (by rw [h.objects.length_eq]; exact hi) hi
  exact ⟨k, hv.one, T.phrase_wf _ _ hv.matchPhrase⟩

/-- The search returns. -/
theorem Spec.AnyRequest.returns (hC : FindsPhrases C) {T : SearchSerde} {src : Subquery → Source P S}
    {values : List JsValue} {qs : List Subquery} {o : JsValue} {opts : MatchOpts}
    (h : AnyRequest T src values qs o opts) {env : TreeEnv} (henv : env.chk = false)
    (rest : List JsValue) :
    ∃ out, stackAndCoalesce env qs opts = some out ∧
      jsStackAndCoalesce T env (.arr values :: o :: .func :: rest) = .returned (some out) := by
  have hfit : RequestFit env.chk qs opts := by
    rw [henv]
    refine ⟨fun q hq => (h.opened q hq).fit hC, ?_, ?_, SearchSerde.optsWf h.decoded, h.zoom, nofun, nofun⟩
    · intro q hq
      obtain ⟨k, hk, -⟩ := h.keys hq
      rw [hk]; simp
    · intro q hq k' hk'
      obtain ⟨k, hk, hp⟩ := h.keys hq
      rw [hk, List.mem_singleton] at hk'
      rw [hk']
      exact ⟨hp, nofun, nofun⟩
  obtain ⟨out, hout⟩ := C60_stack_and_coalesce hfit (by rw [henv]; exact nofun) h.weights
  refine ⟨out, hout, ?_⟩
  rw [(C64_same_as_native T env (fun _ => .id) h.objects h.decoded rest).2.1, hout]

/-- What a lookup for a phrase match of the request returns was indexed. -/
theorem indexed_of_answers (hC : FindsPhrases C) {T : SearchSerde} {src : Subquery → Source P S}
    {values : List JsValue} {qs : List Subquery} {o : JsValue} {opts : MatchOpts}
    (h : AnyRequest T src values qs o opts) {env : TreeEnv} (henv : env.chk = false) {hit : Hit}
    (hq : hit.q ∈ qs) {limit : ℕ} (hlim : 1 ≤ limit) (hans : hit.Answers env.toEnv opts limit) :
    Indexed src opts hit := by
  obtain ⟨hk, o', grids, ho', hg, hgm⟩ := hans
  have hop := h.opened _ hq
  obtain ⟨hl1, hl2, hl3⟩ := lookupOpts_release (env := env.toEnv) henv (SearchSerde.optsWf h.decoded)
    h.zoom hop.zoom hit.kg
  rw [hl1] at ho'
  cases ho'
  have hkey : hit.kg.key.phrase.start < 2 ^ 32 := by
    obtain ⟨k, hk', hp⟩ := h.keys hq
    rw [hk', List.mem_singleton] at hk
    rw [hk]; exact hp
  obtain ⟨grids', hg', hall⟩ := C67_nothing_else hC hop env.merger env.rows hit.kg.key hkey _ hl2 hl3
    limit hlim
  unfold Env.query at hg
  rw [henv] at hg
  rw [hg] at hg'
  cases hg'
  exact ⟨hk, hall _ hgm⟩

/-- C67: `stackAndCoalesce` from JavaScript on indexes built from JavaScript: everything that comes back
is put together from grids that were indexed under the phrases asked for. -/
theorem C67_stack_sound (hC : FindsPhrases C) {T : SearchSerde} {src : Subquery → Source P S}
    {values : List JsValue} {qs : List Subquery} {o : JsValue} {opts : MatchOpts}
    (h : StackRequest T src values qs o opts) {env : TreeEnv} (henv : env.chk = false)
    (rest : List JsValue) :
    ∃ out, jsStackAndCoalesce T env (.arr values :: o :: .func :: rest) = .returned (some out) ∧
      ∀ c ∈ out, ∃ hs, ContextOf env.toEnv opts qs hs c ∧ ∀ hit ∈ hs, Indexed src opts hit := by
  obtain ⟨out, hout, hjs⟩ := h.returns hC henv rest
  refine ⟨out, hjs, fun c hc => ?_⟩
  obtain ⟨hs, hcx⟩ := C56_sound h.delivered h.few (Or.inr h.zooms) hout c hc
  refine ⟨hs, hcx, fun hit hh => ?_⟩
  have hq : hit.q ∈ qs := hcx.stack.mem _ (List.mem_map_of_mem hh)
  obtain ⟨limit, hlim, hans⟩ : ∃ limit, 1 ≤ limit ∧ hit.Answers env.toEnv opts limit := by
    by_cases hl : Lone qs hs
    · exact ⟨80, by decide, hcx.answers hit hh 80 (fun _ => rfl) (fun hn => absurd hl hn)⟩
    · exact ⟨100000, by decide, hcx.answers hit hh 100000 (fun hn => absurd hn hl) (fun _ => rfl)⟩
  exact indexed_of_answers hC h.toAnyRequest henv hq hlim hans

/-- C79: the same for any number of stacks. What comes back may then also be a grid that was indexed under
the phrase of a single phrase match, taken as if nothing could go below, where 2000 stacks are at
least about as good. -/
theorem C79_sound_from_js (hC : FindsPhrases C) {T : SearchSerde} {src : Subquery → Source P S}
    {values : List JsValue} {qs : List Subquery} {o : JsValue} {opts : MatchOpts}
    (h : AnyRequest T src values qs o opts) {env : TreeEnv} (henv : env.chk = false)
    (hf : FewTypes qs) (hw : WeightsOk qs) (rest : List JsValue) :
    ∃ out, jsStackAndCoalesce T env (.arr values :: o :: .func :: rest) = .returned (some out) ∧
      ∀ c ∈ out, (∃ hs, ContextOf env.toEnv opts qs hs c ∧ ∀ hit ∈ hs, Indexed src opts hit) ∨
        ∃ hit : Hit, hit.q ∈ qs ∧ ContextOf env.toEnv opts [hit.q] [hit] c ∧ Indexed src opts hit ∧
          Extendable qs [hit.q] ∧ Crowded 2000 qs [hit.q] := by
  obtain ⟨out, hout, hjs⟩ := h.returns hC henv rest
  refine ⟨out, hjs, fun c hc => ?_⟩
  have hans : ∀ {pms : List Subquery} {hs : List Hit}, ContextOf env.toEnv opts pms hs c →
      ∀ hit ∈ hs, hit.q ∈ qs → Indexed src opts hit := by
    intro pms hs hcx hit hh hq
    by_cases hl : Lone pms hs
    · exact indexed_of_answers hC h henv hq (limit := 80) (by decide)
        (hcx.answers hit hh 80 (fun _ => rfl) (fun hn => absurd hl hn))
    · exact indexed_of_answers hC h henv hq (limit := 100000) (by decide)
        (hcx.answers hit hh 100000 (fun hn => absurd hn hl) (fun _ => rfl))
  rcases C79_sound h.delivered hf (Or.inr h.zooms) hw hout c hc with ⟨hs, hcx⟩ | ⟨hit, hq, hcx, h1, h2⟩
  · exact Or.inl ⟨hs, hcx, fun hit hh => hans hcx hit hh (hcx.stack.mem _ (List.mem_map_of_mem hh))⟩
  · exact Or.inr ⟨hit, hq, hcx, hans hcx hit (by simp) hq, h1, h2⟩

/-- Indexed grids on a stack, each tile in the one before, are matched by hits that stack up. -/
theorem indexed_complete (hC : FindsPhrases C) {T : SearchSerde} {src : Subquery → Source P S}
    {values : List JsValue} {qs : List Subquery} {o : JsValue} {opts : MatchOpts}
    (h : AnyRequest T src values qs o opts) {env : TreeEnv} (henv : env.chk = false)
    (hgrids : ∀ q ∈ qs, FewGrids src q) (rest : List JsValue) :
    ∃ out, jsStackAndCoalesce T env (.arr values :: o :: .func :: rest) = .returned (some out) ∧
      (∀ hs : List Hit, hs ≠ [] → ¬ Lone qs hs → IsStack qs (hs.map Hit.q) →
        (∀ hit ∈ hs, Indexed src opts hit ∧ hit.InBoxes) →
        hs.IsChain (fun a b => TileContains a.tile b.tile) →
        ∃ hs', List.Forall₂ (fun a b => SamePlace b a ∧ Indexed src opts b ∧
            a.grid.entry.relev ≤ b.grid.entry.relev) hs hs' ∧
          HitsStackUp env.toEnv opts qs hs' ∧ stackAndCoalesce env qs opts = some out) := by
  obtain ⟨out, hout, hjs⟩ := h.returns hC henv rest
  refine ⟨out, hjs, fun hs hne hlone hst hind htile => ?_⟩
  have hmem : ∀ a ∈ hs, a.q ∈ qs := fun a ha => hst.mem _ (List.mem_map_of_mem ha)
  obtain ⟨hs', hall⟩ := forall₂_of_forall (l := hs) (R := fun a b => (SamePlace b a ∧
      Indexed src opts b ∧ a.grid.entry.relev ≤ b.grid.entry.relev) ∧
      b.FirstAnswer env.toEnv opts ∧ b.InBoxes) (by
    intro a ha
    have hkey : a.kg.key.phrase.start < 2 ^ 32 := by
      obtain ⟨k, hk', hp⟩ := h.keys (hmem a ha)
      have hk := (hind a ha).1.1
      rw [hk', List.mem_singleton] at hk
      rw [hk]; exact hp
    obtain ⟨b, h1, h2, h3, h4⟩ := firstAnswer_of_indexed hC (env := env.toEnv) henv
      (SearchSerde.optsWf h.decoded) h.zoom (h.opened _ (hmem a ha)) (hgrids _ (hmem a ha)) hkey
      (hind a ha).1
    refine ⟨b, ⟨h1, h2, h4⟩, h3, ?_⟩
    obtain ⟨bx, hbx, hin⟩ := (hind a ha).2
    refine ⟨bx, by rw [h1.q]; exact hbx, ?_⟩
    rw [h1.x, h1.y]
    exact hin)
  have hqs : hs.map Hit.q = hs'.map Hit.q := forall₂_map_eq hall fun a b hab => hab.1.1.q.symm
  have htl : hs.map Hit.tile = hs'.map Hit.tile := forall₂_map_eq hall fun a b hab => by
    unfold Hit.tile tileOf
    rw [hab.1.1.q, hab.1.1.x, hab.1.1.y]
  have hback : ∀ b ∈ hs', ∃ a ∈ hs, (SamePlace b a ∧ Indexed src opts b ∧
      a.grid.entry.relev ≤ b.grid.entry.relev) ∧
      b.FirstAnswer env.toEnv opts ∧ b.InBoxes := by
    intro b hb
    obtain ⟨i, hi, rfl⟩ := List.getElem_of_mem hb
    have hi' : i < hs.length := by rw [hall.length_eq]; exact hi
    exact ⟨hs[i], List.getElem_mem hi', (List.forall₂_iff_get.1 hall).2 i hi' hi⟩
  have hup : HitsStackUp env.toEnv opts qs hs' := by
    refine ⟨?_, ?_, by rw [← hqs]; exact hst, ?_, ?_, ?_⟩
    · rintro rfl
      cases hall
      exact hne rfl
    · rintro ⟨b, rfl, hext⟩
      refine hlone ?_
      have : hs.map Hit.q = [b.q] := hqs
      obtain ⟨a, rfl, ha⟩ := map_eq_one this
      exact ⟨a, rfl, by rw [ha]; exact hext⟩
    · intro b hb
      obtain ⟨a, -, -, h1, -⟩ := hback b hb
      exact h1
    · intro b hb
      obtain ⟨a, -, -, -, h1⟩ := hback b hb
      exact h1
    · have : (hs.map Hit.tile).IsChain TileContains := (List.isChain_map _).2 htile
      rw [htl] at this
      exact (List.isChain_map _).1 this
  exact ⟨hs', hall.imp fun a b hab => hab.1, hup, hout⟩

/-- C67: nothing that was indexed is missed: take indexed grids, on a stack of the phrase matches and each
tile in the one before. There are indexed grids with the same tiles and features, and no lower
relevances, which come back as a context; or 40 others rank before them. -/
theorem C67_stack_complete (hC : FindsPhrases C) {T : SearchSerde} {src : Subquery → Source P S}
    {values : List JsValue} {qs : List Subquery} {o : JsValue} {opts : MatchOpts}
    (h : StackRequest T src values qs o opts) {env : TreeEnv} (henv : env.chk = false)
    (hgrids : ∀ q ∈ qs, FewGrids src q) (hroom : RoomForGroups qs) (rest : List JsValue) :
    ∃ out, jsStackAndCoalesce T env (.arr values :: o :: .func :: rest) = .returned (some out) ∧
      (out.length < 800 → ∀ hs : List Hit, hs ≠ [] → ¬ Lone qs hs → IsStack qs (hs.map Hit.q) →
        (∀ hit ∈ hs, Indexed src opts hit ∧ hit.InBoxes) →
        hs.IsChain (fun a b => TileContains a.tile b.tile) →
        ∃ hs', List.Forall₂ (fun a b => SamePlace b a ∧ Indexed src opts b ∧
            a.grid.entry.relev ≤ b.grid.entry.relev) hs hs' ∧
          ((∃ c ∈ out, ContextOf env.toEnv opts qs hs' c) ∨
          ∃ better : List Context, better.Subperm out ∧ better.length = 40 ∧ ∀ r ∈ better,
            (∃ hs'', ContextOf env.toEnv opts qs hs'' r ∧ SameLastGroup hs'' hs') ∧
            ∀ c, ContextOf env.toEnv opts qs hs' c → RanksBefore r c)) := by
  obtain ⟨out, hjs, hall⟩ := indexed_complete hC h.toAnyRequest henv hgrids rest
  refine ⟨out, hjs, fun hlen hs hne hlone hst hind htile => ?_⟩
  obtain ⟨hs', h1, hup, hout⟩ := hall hs hne hlone hst hind htile
  exact ⟨hs', h1, C56_complete h.delivered h.few (Or.inr h.zooms) hroom hout hlen hup⟩

/-- C75: the same without the rule that slow scans do not occur: only contexts that have at most three
quarters of the relevance of one that comes back can be missed. -/
theorem C75_from_js (hC : FindsPhrases C) {T : SearchSerde} {src : Subquery → Source P S}
    {values : List JsValue} {qs : List Subquery} {o : JsValue} {opts : MatchOpts}
    (h : StackRequest T src values qs o opts) {env : TreeEnv} (henv : env.chk = false)
    (hgrids : ∀ q ∈ qs, FewGrids src q) (hw : WeightsPositive qs)
    (hroom : RoomToTryGroups qs) (rest : List JsValue) :
    ∃ out, jsStackAndCoalesce T env (.arr values :: o :: .func :: rest) = .returned (some out) ∧
      (out.length < 800 → ∀ hs : List Hit, hs ≠ [] → ¬ Lone qs hs → IsStack qs (hs.map Hit.q) →
        (∀ hit ∈ hs, Indexed src opts hit ∧ hit.InBoxes) →
        hs.IsChain (fun a b => TileContains a.tile b.tile) →
        ∃ hs', List.Forall₂ (fun a b => SamePlace b a ∧ Indexed src opts b ∧
            a.grid.entry.relev ≤ b.grid.entry.relev) hs hs' ∧
          ((∃ c ∈ out, ContextOf env.toEnv opts qs hs' c) ∨
          (∃ better : List Context, better.Subperm out ∧ better.length = 40 ∧ ∀ r ∈ better,
            (∃ hs'', ContextOf env.toEnv opts qs hs'' r ∧ SameLastGroup hs'' hs') ∧
            ∀ c, ContextOf env.toEnv opts qs hs' c → RanksBefore r c) ∨
          NotWorthTrying env.toEnv opts qs hs' out)) := by
  obtain ⟨out, hjs, hall⟩ := indexed_complete hC h.toAnyRequest henv hgrids rest
  refine ⟨out, hjs, fun hlen hs hne hlone hst hind htile => ?_⟩
  obtain ⟨hs', h1, hup, hout⟩ := hall hs hne hlone hst hind htile
  exact ⟨hs', h1, C75_complete h.delivered h.few (Or.inr h.zooms) hw hroom hout hlen hup⟩

/-- C78: the same for any number of contexts and where only the quotas need to be enough that the scans
for these grids count against: if 800 come back, more can be missed, but only what has no more
relevance than any of them, or is for one of seven stacks with something put below. -/
theorem C78_from_js (hC : FindsPhrases C) {T : SearchSerde} {src : Subquery → Source P S}
    {values : List JsValue} {qs : List Subquery} {o : JsValue} {opts : MatchOpts}
    (h : StackRequest T src values qs o opts) {env : TreeEnv} (henv : env.chk = false)
    (hgrids : ∀ q ∈ qs, FewGrids src q) (hw : WeightsPositive qs)
    (rest : List JsValue) :
    ∃ out, jsStackAndCoalesce T env (.arr values :: o :: .func :: rest) = .returned (some out) ∧
      ∃ tops : List (List Subquery), tops.length ≤ 7 ∧
      ∀ hs : List Hit, hs ≠ [] → ¬ Lone qs hs → IsStack qs (hs.map Hit.q) →
        (∀ h ∈ hs, RoomInGroups qs (h.q, h.kg)) →
        (∀ hit ∈ hs, Indexed src opts hit ∧ hit.InBoxes) →
        hs.IsChain (fun a b => TileContains a.tile b.tile) →
        ∃ hs', List.Forall₂ (fun a b => SamePlace b a ∧ Indexed src opts b ∧
            a.grid.entry.relev ≤ b.grid.entry.relev) hs hs' ∧
          ((∃ c ∈ out, ContextOf env.toEnv opts qs hs' c) ∨
          (∃ better : List Context, better.Subperm out ∧ better.length = 40 ∧ ∀ r ∈ better,
            (∃ hs'', ContextOf env.toEnv opts qs hs'' r ∧ SameLastGroup hs'' hs') ∧
            ∀ c, ContextOf env.toEnv opts qs hs' c → RanksBefore r c) ∨
          NotWorthTrying env.toEnv opts qs hs' out ∨
          (out.length = 800 ∧ ((∀ c, ContextOf env.toEnv opts qs hs' c →
            ∀ r ∈ out, c.relev ≤ r.relev) ∨ ContinuesGroup tops (hs.map Hit.q)))) := by
  obtain ⟨out, hout, hjs⟩ := h.returns hC henv rest
  obtain ⟨out', hjs', hall⟩ := indexed_complete hC h.toAnyRequest henv hgrids rest
  obtain rfl : out = out' := by
    rw [hjs] at hjs'
    cases hjs'
    rfl
  obtain ⟨tops, h7, hfull⟩ := C78_complete h.delivered h.few (Or.inr h.zooms) hw hout
  refine ⟨out, hjs, tops, h7, fun hs hne hlone hst hroom hind htile => ?_⟩
  obtain ⟨hs', h1, hup, -⟩ := hall hs hne hlone hst hind htile
  have hqs : hs.map (fun h => (h.q, h.kg)) = hs'.map fun h => (h.q, h.kg) := by
    clear hup hne hlone hst hind htile hroom
    induction h1 with
    | nil => rfl
    | cons hab _ ih => rw [List.map_cons, List.map_cons, ih, hab.1.q, hab.1.kg]
  have hqs' : hs.map Hit.q = hs'.map Hit.q := by
    have := congrArg (List.map Prod.fst) hqs
    rwa [List.map_map, List.map_map] at this
  rw [hqs']
  refine ⟨hs', h1, hfull hs' hup fun x hx => ?_⟩
  have hx := List.mem_map_of_mem (f := fun h : Hit => (h.q, h.kg)) hx
  rw [← hqs] at hx
  obtain ⟨y, hy, he⟩ := List.mem_map.1 hx
  rw [← he]
  exact hroom y hy

/-- C79: the same for any number of stacks: indexed grids on a stack may also be missed if 2000 other
stacks are no less relevant, except by rounding. -/
theorem C79_from_js (hC : FindsPhrases C) {T : SearchSerde} {src : Subquery → Source P S}
    {values : List JsValue} {qs : List Subquery} {o : JsValue} {opts : MatchOpts}
    (h : AnyRequest T src values qs o opts) {env : TreeEnv} (henv : env.chk = false)
    (hgrids : ∀ q ∈ qs, FewGrids src q) (hf : FewTypes qs)
    (hw : WeightsPositive qs)
    (rest : List JsValue) :
    ∃ out, jsStackAndCoalesce T env (.arr values :: o :: .func :: rest) = .returned (some out) ∧
      ∃ tops : List (List Subquery), tops.length ≤ 7 ∧
      ∀ hs : List Hit, hs ≠ [] → ¬ Lone qs hs → IsStack qs (hs.map Hit.q) →
        (∀ h ∈ hs, RoomInGroups qs (h.q, h.kg)) →
        (∀ hit ∈ hs, Indexed src opts hit ∧ hit.InBoxes) →
        hs.IsChain (fun a b => TileContains a.tile b.tile) →
        ∃ hs', List.Forall₂ (fun a b => SamePlace b a ∧ Indexed src opts b ∧
            a.grid.entry.relev ≤ b.grid.entry.relev) hs hs' ∧
          ((∃ c ∈ out, ContextOf env.toEnv opts qs hs' c) ∨
          (∃ better : List Context, better.Subperm out ∧ better.length = 40 ∧ ∀ r ∈ better,
            (∃ hs'', ContextOf env.toEnv opts qs hs'' r ∧ SameLastGroup hs'' hs') ∧
            ∀ c, ContextOf env.toEnv opts qs hs' c → RanksBefore r c) ∨
          NotWorthTrying env.toEnv opts qs hs' out ∨
          (out.length = 800 ∧ ((∀ c, ContextOf env.toEnv opts qs hs' c →
            ∀ r ∈ out, c.relev ≤ r.relev) ∨ ContinuesGroup tops (hs.map Hit.q))) ∨
          Crowded 2000 qs (hs.map Hit.q)) := by
  obtain ⟨out, hout, hjs⟩ := h.returns hC henv rest
  obtain ⟨out', hjs', hall⟩ := indexed_complete hC h henv hgrids rest
  obtain rfl : out = out' := by
    rw [hjs] at hjs'
    cases hjs'
    rfl
  obtain ⟨tops, h7, hfull⟩ := C79_complete h.delivered hf (Or.inr h.zooms) hw hout
  refine ⟨out, hjs, tops, h7, fun hs hne hlone hst hroom hind htile => ?_⟩
  obtain ⟨hs', h1, hup, -⟩ := hall hs hne hlone hst hind htile
  have hqs : hs.map (fun h => (h.q, h.kg)) = hs'.map fun h => (h.q, h.kg) := by
    clear hup hne hlone hst hind htile hroom
    induction h1 with
    | nil => rfl
    | cons hab _ ih => rw [List.map_cons, List.map_cons, ih, hab.1.q, hab.1.kg]
  have hqs' : hs.map Hit.q = hs'.map Hit.q := by
    have := congrArg (List.map Prod.fst) hqs
    rwa [List.map_map, List.map_map] at this
  rw [hqs']
  refine ⟨hs', h1, hfull hs' hup fun x hx => ?_⟩
  have hx := List.mem_map_of_mem (f := fun h : Hit => (h.q, h.kg)) hx
  rw [← hqs] at hx
  obtain ⟨y, hy, he⟩ := List.mem_map.1 hx
  rw [← he]
  exact hroom y hy

/-- C76: the same for any number of contexts: if 800 come back, more can be missed, but only what has no
more relevance than any of them, or is for one of seven stacks with something put below. -/
theorem C76_from_js (hC : FindsPhrases C) {T : SearchSerde} {src : Subquery → Source P S}
    {values : List JsValue} {qs : List Subquery} {o : JsValue} {opts : MatchOpts}
    (h : StackRequest T src values qs o opts) {env : TreeEnv} (henv : env.chk = false)
    (hgrids : ∀ q ∈ qs, FewGrids src q) (hw : WeightsPositive qs)
    (hroom : RoomToTryGroups qs) (rest : List JsValue) :
    ∃ out, jsStackAndCoalesce T env (.arr values :: o :: .func :: rest) = .returned (some out) ∧
      ∃ tops : List (List Subquery), tops.length ≤ 7 ∧
      ∀ hs : List Hit, hs ≠ [] → ¬ Lone qs hs → IsStack qs (hs.map Hit.q) →
        (∀ hit ∈ hs, Indexed src opts hit ∧ hit.InBoxes) →
        hs.IsChain (fun a b => TileContains a.tile b.tile) →
        ∃ hs', List.Forall₂ (fun a b => SamePlace b a ∧ Indexed src opts b ∧
            a.grid.entry.relev ≤ b.grid.entry.relev) hs hs' ∧
          ((∃ c ∈ out, ContextOf env.toEnv opts qs hs' c) ∨
          (∃ better : List Context, better.Subperm out ∧ better.length = 40 ∧ ∀ r ∈ better,
            (∃ hs'', ContextOf env.toEnv opts qs hs'' r ∧ SameLastGroup hs'' hs') ∧
            ∀ c, ContextOf env.toEnv opts qs hs' c → RanksBefore r c) ∨
          NotWorthTrying env.toEnv opts qs hs' out ∨
          (out.length = 800 ∧ ((∀ c, ContextOf env.toEnv opts qs hs' c →
            ∀ r ∈ out, c.relev ≤ r.relev) ∨ ContinuesGroup tops (hs.map Hit.q)))) := by
  obtain ⟨out, hjs, tops, h7, hall⟩ := C78_from_js hC h henv hgrids hw rest
  exact ⟨out, hjs, tops, h7, fun hs hne hlone hst => hall hs hne hlone hst fun _ _ => hroom.for _⟩

/-! ## A search -/

/-- Options of a request (without point and box) and of a store (with a box around everything), taken from
objects. -/
def worldSearch : SearchSerde where
  toSerde := plainSerde
  opts := plainSearch.opts
  storeOpts v := (plainSearch.storeOpts v).map fun o => { o with bboxes := [⟨0, 0, 65535, 65535⟩] }
  phrase_wf := plainSearch.phrase_wf
  opts_wf := plainSearch.opts_wf

/-- The grids of the items with words. -/
def foundDb : SMap Bytes Bytes :=
  ((buildIndex (P := plainPhraseSerde plainPhrases) .id (wordItems plainPhrases)).map Prod.snd).getD []

/-- A store opened on them, of this type. -/
def foundStore (type : ℕ) : Store := Store.openWith foundDb 6 type (.fin 200) [⟨0, 0, 65535, 65535⟩] (.fin 3)

/-- The source of every store: "oak" is phrase 0, "main" phrase 1. -/
def foundSource (_ : Subquery) : Source (plainPhraseSerde plainPhrases) plainSerde :=
  ⟨[["oak"], ["main"]], wordItems plainPhrases⟩

/-- A phrase match for "main" in the store of this type. -/
def foundItem (type : ℕ) : JsValue :=
  .obj [("store", .store (foundStore type)), ("weight", .num (lit 0.5)), ("mask", .num (.fin type)),
    ("match_key", .obj [("match_phrase", .num (.fin 1)), ("lang_set", .arr [.num (.fin 3)])]),
    ("id", .num (.fin type)), ("idx", .num (.fin type)), ("phrase", .str "main"),
    ("non_overlapping_indexes", .arr [])]

/-- The match key. -/
def foundKey (id : ℕ) : KeyWithId := ⟨⟨.exact 1, 8⟩, false, id, 4⟩

/-- What it stands for. -/
def foundMatch (type : ℕ) : Subquery :=
  ⟨foundStore type, type, [], lit 0.5, type, [foundKey type]⟩

/-- The options of the request. -/
def foundOpts : JsValue := .obj [("zoom", .num (.fin 6))]

theorem foundItem_stands (type : ℕ) (h : type = 1 ∨ type = 2) :
    MatchObject worldSearch.toSerde (foundItem type) (foundMatch type) (foundKey type) "main" := by
  rcases h with rfl | rfl <;>
  exact {
    object := rfl
    store := rfl
    weight := rfl
    mask := by rfl
    idx := by rfl
    nonOverlapping := by rfl
    one := rfl
    keyObject := rfl
    matchPhrase := by rfl
    langs := .arr [3] 8 (by decide) (by decide)
    nearby := Or.inl ⟨rfl, rfl⟩
    id := by rfl
    phrase := rfl
    length := rfl }

theorem foundStore_opened (type : ℕ) (h : type = 1 ∨ type = 2) (q : Subquery) :
    Opened worldSearch (foundSource q).items (foundSource q).ix (foundStore type) := by
  refine ⟨⟨.id, foundDb, [.str "dir", .obj [("zoom", .num (.fin 6)), ("type_id", .num (.fin type)),
    ("coalesce_radius", .num (.fin 200)), ("max_score", .num (.fin 3))]], ?_, ?_, ?_⟩, ?_, ?_, ?_⟩
  · have h : (buildIndex (P := plainPhraseSerde plainPhrases) .id (wordItems plainPhrases)).any
        (fun r => decide (r.1 = [["oak"], ["main"]])) = true := by decide +kernel
    unfold foundDb foundSource
    rcases hr : buildIndex (P := plainPhraseSerde plainPhrases) .id (wordItems plainPhrases) with
      _ | ⟨ix, db⟩
    · rw [hr] at h
      cases h
    · rw [hr] at h
      have := of_decide_eq_true h
      simp only at this
      subst this
      rfl
  · decide +kernel
  · rcases h with rfl | rfl <;> rfl
  · show ∀ it ∈ wordItems plainPhrases, ∀ e ∈ it.grids, e.score ≤ 15
    decide +kernel
  · rcases h with rfl | rfl <;> decide +kernel
  · rcases h with rfl | rfl <;> decide +kernel

theorem wanted_le (ix : C.Index) (phrase : MatchPhrase) (items : List (IndexItem P S)) :
    (wanted ix phrase items).length ≤ items.length ∧
      ((wanted ix phrase items).flatMap fun it => it.grids).length ≤
        (items.flatMap fun it => it.grids).length :=
  ⟨List.length_filter_le _ _, (List.Sublist.flatMap List.filter_sublist _).length_le⟩

/-- The hypotheses of C67 for one phrase match: "main" has two features. -/
example : (wanted (foundSource (foundMatch 1)).ix (foundKey 1).key.phrase
      (foundSource (foundMatch 1)).items).length ≤ 80 ∧
    ItemHit (foundSource (foundMatch 1)).ix (foundSource (foundMatch 1)).items ⟨none, none, 6⟩ (.fin 200)
      (foundKey 1).key ⟨⟨1, 3, 10, 11, 5, 7⟩, true, 0, .fin 3⟩ ∧
    (match jsCoalesce worldSearch listEnv (fun _ => .id) [.arr [foundItem 1], foundOpts, .func] with
    | .returned (some out) => decide (out.map (fun c => c.entries.map fun e => e.entry.id) = [[7], [5]])
    | _ => false) = true := by
  refine ⟨(wanted_le _ _ _).1.trans (by decide +kernel), ?_, by decide +kernel⟩
  refine ⟨wordItem "main" 5 (by decide +kernel), List.mem_cons_self, ⟨1, rfl, rfl⟩,
    ⟨1, 3, 10, 11, 5, 7⟩, List.mem_singleton.2 rfl, trivial, by decide +kernel⟩

/-- A hit for "main" in the store of this type. -/
def foundHit (type : ℕ) : Hit :=
  ⟨foundMatch type, foundKey type, ⟨⟨1, 3, 10, 11, 5, 7⟩, true, 0, .fin 3⟩⟩

theorem foundHit_indexed (type : ℕ) (h : type = 1 ∨ type = 2) :
    Indexed foundSource ⟨none, none, 6⟩ (foundHit type) ∧ (foundHit type).InBoxes := by
  refine ⟨⟨List.mem_singleton.2 rfl, wordItem "main" 5 (by decide +kernel), List.mem_cons_self,
    ⟨1, rfl, rfl⟩, ⟨1, 3, 10, 11, 5, 7⟩, List.mem_singleton.2 rfl, ?_, ?_⟩, ?_⟩
  · rcases h with rfl | rfl <;> decide +kernel
  · rcases h with rfl | rfl <;> decide +kernel
  · rcases h with rfl | rfl <;>
      exact ⟨⟨0, 0, 65535, 65535⟩, List.mem_singleton.2 rfl, by decide +kernel⟩

/-- A request for "main" in two indexes. -/
theorem found_request : StackRequest worldSearch foundSource [foundItem 1, foundItem 2]
    [foundMatch 1, foundMatch 2] foundOpts ⟨none, none, 6⟩ := by
  refine ⟨⟨?_, ?_, by decide +kernel, by decide, ?_, ⟨by decide +kernel, by decide +kernel,
    by decide +kernel⟩, by unfold ZoomsAscend; decide +kernel⟩, few_of_small (by decide +kernel)⟩
  · exact .cons ⟨_, _, foundItem_stands 1 (Or.inl rfl)⟩
      (.cons ⟨_, _, foundItem_stands 2 (Or.inr rfl)⟩ .nil)
  · intro q hq
    simp only [List.mem_cons, List.not_mem_nil, or_false] at hq
    rcases hq with rfl | rfl
    · exact foundStore_opened 1 (Or.inl rfl) _
    · exact foundStore_opened 2 (Or.inr rfl) _
  · intro q hq
    simp only [List.mem_cons, List.not_mem_nil, or_false] at hq
    rcases hq with rfl | rfl <;> exact ⟨by decide +kernel, by decide +kernel⟩

theorem found_room : RoomForGroups [foundMatch 1, foundMatch 2] := by
  refine room_of_small (by decide +kernel) (by decide +kernel) ?_
  intro q hq kg hkg
  simp only [List.mem_cons, List.not_mem_nil, or_false] at hq
  rcases hq with rfl | rfl <;>
  · rw [List.mem_singleton.1 hkg]
    exact ⟨1, rfl⟩

/-- The hypotheses of C67 for two phrase matches: "main" in two indexes, at the same tile. -/
example : StackRequest worldSearch foundSource [foundItem 1, foundItem 2] [foundMatch 1, foundMatch 2]
      foundOpts ⟨none, none, 6⟩ ∧
    (∀ q ∈ [foundMatch 1, foundMatch 2], FewGrids foundSource q) ∧
    RoomForGroups [foundMatch 1, foundMatch 2] ∧
    ¬ Lone [foundMatch 1, foundMatch 2] [foundHit 1, foundHit 2] ∧
    IsStack [foundMatch 1, foundMatch 2] ([foundHit 1, foundHit 2].map Hit.q) ∧
    (∀ hit ∈ [foundHit 1, foundHit 2], Indexed foundSource ⟨none, none, 6⟩ hit ∧ hit.InBoxes) ∧
    [foundHit 1, foundHit 2].IsChain (fun a b => TileContains a.tile b.tile) ∧
    (match jsStackAndCoalesce worldSearch (listTreeEnv false)
      [.arr [foundItem 1, foundItem 2], foundOpts, .func] with
    | .returned (some out) => decide (out.length < 800 ∧ (out.map fun c =>
        c.entries.map fun e => (e.idx, e.entry.id)).contains [(2, 5), (1, 5)])
    | _ => false) = true := by
  refine ⟨found_request, ?_, found_room, ?_, ?_, ?_, ?_, by decide +kernel⟩
  · intro q _ kg _
    exact ⟨(wanted_le _ _ _).1.trans (by show List.length (wordItems plainPhrases) ≤ _; decide +kernel),
      (wanted_le _ _ _).2.trans (by
        show List.length (List.flatMap _ (wordItems plainPhrases)) ≤ _; decide +kernel)⟩
  · rintro ⟨l, h, -⟩
    have := congrArg List.length h
    simp at this
  · exact ⟨by decide +kernel, by decide +kernel, by decide +kernel, by decide +kernel,
      by decide +kernel⟩
  · intro hit hh
    simp only [List.mem_cons, List.not_mem_nil, or_false] at hh
    rcases hh with rfl | rfl
    · exact foundHit_indexed 1 (Or.inl rfl)
    · exact foundHit_indexed 2 (Or.inr rfl)
  · rw [List.isChain_cons_cons]
    refine ⟨?_, List.isChain_singleton _⟩
    unfold TileContains
    decide +kernel

end Carmen
