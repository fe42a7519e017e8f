import Verif.Lemmas.QueryExact

/-!
# C15, C16, C18, C19, C24: what a query returns
-/

namespace Carmen
open Format Spec Builder

/-- The answer to a query: every stored entry in the box, of every key in `ks`, reported. -/
def Spec.answer (c : Content) (opts : MatchOpts) (radius : F64) (lang : ℕ) (ks : List GridKey) :
    List MatchEntry :=
  ks.flatMap (fun k => ((readBack (((c k).getD []).map stored)).filter
    (fun e => decide (InBox opts e))).map (report opts radius (langMatches lang k.langSet)))

/-- `ks` lists the keys with a phrase id that `phrase` asks for, once each. -/
def Spec.KeysFor (c : Content) (phrase : MatchPhrase) (ks : List GridKey) : Prop :=
  ks.Nodup ∧ ∀ k, k ∈ ks ↔ (c k).isSome ∧ InPhrase phrase k.phraseId

theorem content_isSome_iff {cs : List Call} (hc : ∀ c ∈ cs, c.Wf) {b : Builder}
    (hrun : Builder.run cs = some b) (k : GridKey) :
    (Content.run cs k).isSome ↔ k ∈ b.data.map Prod.fst := by
  have hr := refines_run hc hrun
  rw [SMap.mem_keys_iff hr.wf.sorted, Option.isSome_iff_ne_none, Option.isSome_iff_ne_none,
    not_iff_not]
  exact (hr.absent k).symm

/-- The general form of C15, C16, C18 and C19. -/
theorem query_content (o : IterOrder) (cs : List Call) (hc : ∀ c ∈ cs, c.Wf)
    (hscore : ∀ c ∈ cs, ∀ e ∈ c.entries, e.score ≤ 15)
    (b : Builder) (hrun : Builder.run cs = some b)
    (db : SMap Bytes Bytes) (hfin : finish o b = some db) (hsmall : SmallRecords db)
    (s : Store) (hs : s.db = db) (M : KMerger) (H : Heap QueueElement.key) (chk : Bool)
    (mk : MatchKey) (opts : MatchOpts) (ho : OptsWf opts) (hbf : BoxFit chk opts) (hn : NumbersOk opts s.radius)
    (st en : ℕ) (hp : s.fetchPlan chk mk.phrase = some (st, en, .singlePhrase))
    (hst : st < 2 ^ 32) (ks : List GridKey) (hnd : ks.Nodup)
    (hks : ∀ k, k ∈ ks ↔ (Content.run cs k).isSome ∧ st ≤ k.phraseId ∧ k.phraseId < en)
    (n : ℕ) (hlim : ks.length ≤ n) :
    ∃ out, s.getMatching M H chk mk opts n = some out ∧
      out.Perm (answer (Content.run cs) opts s.radius mk.langSet ks) := by
  have hb := (refines_run hc hrun).wf
  have hks' : ∀ k, k ∈ ks ↔ k ∈ b.data.map Prod.fst ∧ st ≤ k.phraseId ∧ k.phraseId < en := by
    intro k; rw [hks, content_isSome_iff hc hrun]
  refine query_exact hb hfin hsmall hs ho hn M H chk hbf mk hp hst hnd hks' hlim
    (fun k => readBack (((Content.run cs k).getD []).map stored)) ?_
  intro k hk
  have hkw : k.Wf := by
    obtain ⟨p, hp, rfl⟩ := List.mem_map.1 ((hks' k).1 hk).1
    exact hb.keys p hp
  rw [C06_history_is_map_of_sets o cs hc hscore b hrun db hfin hsmall s hs k hkw]
  obtain ⟨es, hes⟩ := Option.isSome_iff_exists.1 ((hks k).1 hk).1
  rw [hes]; rfl

/-- C15. A range query answered from single-phrase rows, without box and proximity point and
with room for all rows, yields exactly the entries of the range, once per stored key. -/
theorem C15_range_query_exact (o : IterOrder) (cs : List Call) (hc : ∀ c ∈ cs, c.Wf)
    (hscore : ∀ c ∈ cs, ∀ e ∈ c.entries, e.score ≤ 15)
    (b : Builder) (hrun : Builder.run cs = some b)
    (db : SMap Bytes Bytes) (hfin : finish o b = some db) (hsmall : SmallRecords db)
    (s : Store) (hs : s.db = db) (M : KMerger) (H : Heap QueueElement.key) (chk : Bool)
    (st en lang zoom : ℕ) (hst : st < 2 ^ 32) (hsingle : ¬ (st ∈ s.bounds ∧ en ∈ s.bounds))
    (ks : List GridKey) (hks : KeysFor (Content.run cs) (.range st en) ks)
    (n : ℕ) (hlim : ks.length ≤ n) :
    ∃ out, s.getMatching M H chk ⟨.range st en, lang⟩ ⟨none, none, zoom⟩ n = some out ∧
      out.Perm (ks.flatMap (fun k => (readBack (((Content.run cs k).getD []).map stored)).map
        (fun e => ⟨{ e with relev := if langMatches lang k.langSet then e.relev
            else e.relev * lit 0.96 }, langMatches lang k.langSet, 0, F64.ofNat e.score⟩))) := by
  obtain ⟨out, h1, h2⟩ := query_content o cs hc hscore b hrun db hfin hsmall s hs M H chk
    ⟨.range st en, lang⟩ ⟨none, none, zoom⟩ ⟨by simp, by simp⟩ (fun _ => nofun) (by intro h; simp at h) st en
    (by unfold Store.fetchPlan; simp [hsingle]) hst ks hks.1 hks.2 n hlim
  refine ⟨out, h1, h2.trans (List.Perm.of_eq ?_)⟩
  unfold answer
  refine List.flatMap_congr ?_
  intro k _
  rw [List.filter_eq_self.2 (by intro e _; exact decide_eq_true trivial)]
  refine List.map_congr_left ?_
  intro e _
  simp only [report, distanceOf, scoredistOf, MatchEntry.mk.injEq, and_true, GridEntry.mk.injEq]
  by_cases hl : langMatches lang k.langSet = true
  · rw [if_pos (Or.inl hl), if_pos hl]
  · rw [if_neg (by simp [hl, WithinRadius]), if_neg hl]

/-! The hypotheses are met by the example history; the answers are evaluated with a concrete
heap and merge. -/

/-- The builder of the example history. -/
def exampleBuilder : Builder := (Builder.run exampleCalls).getD Builder.new
/-- The store of the example history. -/
def exampleDb : SMap Bytes Bytes := (finish .id exampleBuilder).getD []

theorem exampleBuilder_run : Builder.run exampleCalls = some exampleBuilder := by
  have h : (Builder.run exampleCalls).isSome = true := by decide +kernel
  obtain ⟨b, hb⟩ := Option.isSome_iff_exists.1 h
  rw [exampleBuilder, hb]; rfl

theorem exampleDb_finish : finish .id exampleBuilder = some exampleDb := by
  have h : (finish .id exampleBuilder).isSome = true := by decide +kernel
  obtain ⟨b, hb⟩ := Option.isSome_iff_exists.1 h
  rw [exampleDb, hb]; rfl

theorem exampleDb_small : SmallRecords exampleDb := by decide +kernel

/-- A list of the keys a query asks for always exists. -/
theorem keysFor_exists {cs : List Call} (hc : ∀ c ∈ cs, c.Wf) {b : Builder}
    (hrun : Builder.run cs = some b) (phrase : MatchPhrase) :
    KeysFor (Content.run cs) phrase
      ((b.data.map Prod.fst).filter (fun k => decide (InPhrase phrase k.phraseId))) := by
  refine ⟨(refines_run hc hrun).wf.sorted.keys_nodup.filter _, ?_⟩
  intro k
  rw [List.mem_filter, decide_eq_true_iff, content_isSome_iff hc hrun]

example : ¬ (1 ∈ (Store.new exampleDb).bounds ∧ 3 ∈ (Store.new exampleDb).bounds) ∧
    KeysFor (Content.run exampleCalls) (.range 1 3) [⟨1, allLangs⟩, ⟨2, 256⟩] ∧
    (Store.new exampleDb).getMatching listMerger (listHeap _) true ⟨.range 1 3, 512⟩
      ⟨none, none, 6⟩ 2 =
    some [⟨⟨lit 0.96, 0, 0, 0, 0, 0⟩, false, 0, 0⟩, ⟨⟨lit 0.8, 1, 1, 2, 3, 4⟩, true, 0, 1⟩] := by
  refine ⟨by decide +kernel, ?_, by decide +kernel⟩
  have h := keysFor_exists exampleCalls_wf exampleBuilder_run (.range 1 3)
  have e : ((exampleBuilder.data.map Prod.fst).filter
    (fun k => decide (InPhrase (.range 1 3) k.phraseId))) = [⟨1, allLangs⟩, ⟨2, 256⟩] := by
    decide +kernel
  rw [e] at h
  exact h

/-! ## C16 -/

/-- No finished store holds the largest phrase id. -/
theorem no_max_phrase {o : IterOrder} {b : Builder} (hb : b.Wf) {db : SMap Bytes Bytes}
    (hfin : finish o b = some db) {k : GridKey} (hk : k ∈ b.data.map Prod.fst) :
    k.phraseId ≠ 2 ^ 32 - 1 := by
  obtain ⟨p, hp, rfl⟩ := List.mem_map.1 hk
  exact (C11_finish_returns_partial o b hb).1 ⟨db, hfin⟩ p hp

/-- C16. A query for exactly one phrase id yields exactly the entries stored under it, in
builds without overflow checks for every id, in builds with them for every id but the
largest. -/
theorem C16_exact_query (o : IterOrder) (cs : List Call) (hc : ∀ c ∈ cs, c.Wf)
    (hscore : ∀ c ∈ cs, ∀ e ∈ c.entries, e.score ≤ 15)
    (b : Builder) (hrun : Builder.run cs = some b)
    (db : SMap Bytes Bytes) (hfin : finish o b = some db) (hsmall : SmallRecords db)
    (s : Store) (hs : s.db = db) (M : KMerger) (H : Heap QueueElement.key) (chk : Bool)
    (p lang : ℕ) (hp : p < 2 ^ 32) (hchk : chk = true → p ≠ 2 ^ 32 - 1)
    (opts : MatchOpts) (ho : OptsWf opts) (hbf : BoxFit chk opts) (hn : NumbersOk opts s.radius)
    (ks : List GridKey) (hks : KeysFor (Content.run cs) (.exact p) ks)
    (n : ℕ) (hlim : ks.length ≤ n) :
    ∃ out, s.getMatching M H chk ⟨.exact p, lang⟩ opts n = some out ∧
      out.Perm (answer (Content.run cs) opts s.radius lang ks) := by
  have hb := (refines_run hc hrun).wf
  have hplan : s.fetchPlan chk (.exact p) = some (p, (p + 1) % 2 ^ 32, .singlePhrase) := by
    show (if _ then none else some (p, (p + 1) % 2 ^ 32, TypeMarker.singlePhrase)) = _
    rw [if_neg]
    rw [Bool.and_eq_true, decide_eq_true_iff]
    rintro ⟨h1, h2⟩
    exact hchk h1 (by omega)
  refine query_content o cs hc hscore b hrun db hfin hsmall s hs M H chk ⟨.exact p, lang⟩ opts
    ho hbf hn p _ hplan hp ks hks.1 ?_ n hlim
  intro k
  rw [hks.2 k]
  refine and_congr_right ?_
  intro hk
  rw [content_isSome_iff hc hrun] at hk
  have hne := no_max_phrase hb hfin hk
  show k.phraseId = p ↔ _
  by_cases hmax : p = 2 ^ 32 - 1
  · subst hmax
    constructor
    · intro h; exact absurd h hne
    · rintro ⟨_, h⟩; norm_num at h
  · rw [Nat.mod_eq_of_lt (by omega)]
    omega

/-- C16 is false in a build with overflow checks: on any store, asking for the largest id
panics. -/
theorem C16_debug_panics (s : Store) (M : KMerger) (H : Heap QueueElement.key) (lang : ℕ)
    (opts : MatchOpts) (n : ℕ) :
    s.getMatching M H true ⟨.exact (2 ^ 32 - 1), lang⟩ opts n = none := rfl

example : KeysFor (Content.run exampleCalls) (.exact 3) [⟨3, 1⟩] ∧
    (Store.new exampleDb).getMatching listMerger (listHeap _) true ⟨.exact 3, 1⟩
      ⟨none, none, 6⟩ 1 =
    some [⟨⟨1, 15, 65535, 0, 2 ^ 24 - 1, 255⟩, true, 0, lit 15⟩,
      ⟨⟨lit 0.6, 7, 2, 2, 9, 1⟩, true, 0, lit 7⟩, ⟨⟨lit 0.6, 7, 1, 1, 9, 1⟩, true, 0, lit 7⟩,
      ⟨⟨lit 0.4, 3, 5, 6, 7, 8⟩, true, 0, lit 3⟩] := by
  refine ⟨?_, by decide +kernel⟩
  have h := keysFor_exists exampleCalls_wf exampleBuilder_run (.exact 3)
  have e : ((exampleBuilder.data.map Prod.fst).filter
    (fun k => decide (InPhrase (.exact 3) k.phraseId))) = [⟨3, 1⟩] := by
    decide +kernel
  rw [e] at h
  exact h

/-! ## C18 -/

/-- C18. The language test of a stored key is set intersection. -/
theorem C18_language_match (q : MatchKey) (m : TypeMarker) (k : GridKey) (hk : k.Wf) :
    q.matchesLanguage (k.dbKey m) = some (decide (k.langSet = 2 ^ 128 - 1 ∨
      ∃ i ∈ List.range 128, q.langSet.testBit i = true ∧ k.langSet.testBit i = true)) :=
  matchesLanguage_spec q m hk

example : (⟨.exact 5, 6⟩ : MatchKey).matchesLanguage (GridKey.dbKey .prefixBin ⟨5, 12⟩) = some true ∧
    (⟨.exact 5, 6⟩ : MatchKey).matchesLanguage (GridKey.dbKey .singlePhrase ⟨5, 24⟩) = some false ∧
    (⟨.exact 5, 0⟩ : MatchKey).matchesLanguage (GridKey.dbKey .singlePhrase ⟨5, allLangs⟩) =
      some true := by decide +kernel

/-- C18. Every result of a query comes from a stored entry; its language flag is the set
intersection, and its relevance is the stored one, times 0.96 when the language does not
match and the tile is not within the proximity radius. -/
theorem C18_query_relevance (db : SMap Bytes Bytes) (hd : LaidOut db)
    (s : Store) (hs : s.db = db) (M : KMerger) (H : Heap QueueElement.key) (chk : Bool)
    (mk : MatchKey) (hst : mk.phrase.start < 2 ^ 32) (opts : MatchOpts) (ho : OptsWf opts)
    (hn : NumbersOk opts s.radius) (n : ℕ) (hlim : 1 ≤ n) (out : List MatchEntry)
    (hout : s.getMatching M H chk mk opts n = some out) :
    ∀ r ∈ out, ∃ m k v es e, (GridKey.dbKey m k, v) ∈ db ∧ decodeValue v = some es ∧ e ∈ es ∧
      r.matchesLanguage = decide (k.langSet = 2 ^ 128 - 1 ∨
        ∃ i ∈ List.range 128, mk.langSet.testBit i = true ∧ k.langSet.testBit i = true) ∧
      ((r.matchesLanguage = true ∨ WithinRadius opts s.radius e) → r.entry = e) ∧
      (¬ (r.matchesLanguage = true ∨ WithinRadius opts s.radius e) →
        r.entry = { e with relev := e.relev * lit 0.96 }) := by
  intro r hr
  replace hout := getMatching_relax hout
  cases hp : s.fetchPlan false mk.phrase with
  | none =>
    unfold Store.getMatching Store.queryRows at hout
    rw [hp] at hout
    simp at hout
  | some plan =>
    obtain ⟨st, en, m⟩ := plan
    have hst' : st < 2 ^ 32 := fetchPlan_start hp hst
    have hrows := queryRows_eq hd hs hp hst'
    have hel := rowElement_rows (st := st) (en := en) (m := m) hd ho (boxFit_false _) hn M mk
    obtain ⟨q, dropped, out', h1, h2, h3⟩ := getMatching_rows (H := H) hrows _ hel (Or.inl hlim)
    rw [hout] at h1
    cases h1
    have hmem := h3.perm.mem_iff.1 hr
    obtain ⟨t, ht, hrt⟩ := List.mem_flatten.1 hmem
    obtain ⟨x, hx, rfl⟩ := List.mem_map.1 ht
    have hxa : x ∈ ((db.filter (inRange m st en)).map (rowOut M s mk opts)).filterMap elemOf :=
      h2.perm.mem_iff.1 (List.mem_append_left _ hx)
    obtain ⟨l, hl, hle⟩ := List.mem_filterMap.1 hxa
    obtain ⟨row, hrow, rfl⟩ := List.mem_map.1 hl
    obtain ⟨_, k, e, es, hk, _, _, rfl, _, _, hdec, _, _, hperm⟩ :=
      row_answers hd ho (boxFit_false _) hn M mk hrow
    rw [elemOf_stream hle] at hrt
    obtain ⟨ent, hent, rfl⟩ := List.mem_map.1 (hperm.mem_iff.1 hrt)
    refine ⟨m, k, _, es, ent, (List.mem_filter.1 hrow).1, hdec, (List.mem_filter.1 hent).1, rfl,
      ?_, ?_⟩
    · intro h
      have h' : langMatches mk.langSet k.langSet = true ∨ WithinRadius opts s.radius ent := h
      unfold report
      rw [if_pos h']
    · intro h
      have h' : ¬ (langMatches mk.langSet k.langSet = true ∨ WithinRadius opts s.radius ent) := h
      unfold report
      rw [if_neg h']

/-- A result in the language, one whose relevance is kept because it is near although the
language differs, and ones with reduced relevance. -/
example : ((Store.openWith exampleDb 6 0 (lit 40) [] 0).getMatching listMerger (listHeap _) true
      ⟨.range 1 4, 256⟩ ⟨none, some (5, 6), 6⟩ 5).map
        (List.map (fun r => (r.entry.relev, r.matchesLanguage))) =
    some [(1, true), (lit 0.96, false), (lit 0.8, true), (lit 0.6 * lit 0.96, false),
      (lit 0.6 * lit 0.96, false), (lit 0.4, false)] := by
  decide +kernel

/-! ## C19 -/

/-- C19. A query with a box yields exactly the entries of the range whose tile lies in the
box. -/
theorem C19_box_query_exact (o : IterOrder) (cs : List Call) (hc : ∀ c ∈ cs, c.Wf)
    (hscore : ∀ c ∈ cs, ∀ e ∈ c.entries, e.score ≤ 15)
    (b : Builder) (hrun : Builder.run cs = some b)
    (db : SMap Bytes Bytes) (hfin : finish o b = some db) (hsmall : SmallRecords db)
    (s : Store) (hs : s.db = db) (M : KMerger) (H : Heap QueueElement.key) (chk : Bool)
    (st en lang zoom : ℕ) (hst : st < 2 ^ 32) (hsingle : ¬ (st ∈ s.bounds ∧ en ∈ s.bounds))
    (box : BBox) (hbox : box.maxX < 2 ^ 16 ∧ box.maxY < 2 ^ 16)
    (hord : chk = true → box.minX ≤ box.maxX ∧ box.minY ≤ box.maxY)
    (ks : List GridKey) (hks : KeysFor (Content.run cs) (.range st en) ks)
    (n : ℕ) (hlim : ks.length ≤ n) :
    ∃ out, s.getMatching M H chk ⟨.range st en, lang⟩ ⟨some box, none, zoom⟩ n = some out ∧
      out.Perm (ks.flatMap (fun k =>
        ((readBack (((Content.run cs k).getD []).map stored)).filter (fun e =>
          decide (box.minX ≤ e.x ∧ e.x ≤ box.maxX ∧ box.minY ≤ e.y ∧ e.y ≤ box.maxY))).map
        (report ⟨some box, none, zoom⟩ s.radius (langMatches lang k.langSet)))) := by
  obtain ⟨out, h1, h2⟩ := query_content o cs hc hscore b hrun db hfin hsmall s hs M H chk
    ⟨.range st en, lang⟩ ⟨some box, none, zoom⟩
    ⟨by intro b' hb'; cases hb'; exact hbox, by simp⟩
    (by intro hk b' hb'; cases hb'; exact hord hk) (by intro h; simp at h) st en
    (by unfold Store.fetchPlan; simp [hsingle]) hst ks hks.1 hks.2 n hlim
  exact ⟨out, h1, h2.trans (List.Perm.of_eq rfl)⟩

/-- C19. With or without a proximity point, the results with a box are the results without
it, less those outside. -/
theorem C19_box_is_filter (o : IterOrder) (cs : List Call) (hc : ∀ c ∈ cs, c.Wf)
    (hscore : ∀ c ∈ cs, ∀ e ∈ c.entries, e.score ≤ 15)
    (b : Builder) (hrun : Builder.run cs = some b)
    (db : SMap Bytes Bytes) (hfin : finish o b = some db) (hsmall : SmallRecords db)
    (s : Store) (hs : s.db = db) (M : KMerger) (H : Heap QueueElement.key) (chk : Bool)
    (st en lang : ℕ) (hst : st < 2 ^ 32) (hsingle : ¬ (st ∈ s.bounds ∧ en ∈ s.bounds))
    (box : BBox) (prox : Option (ℕ × ℕ)) (zoom : ℕ) (ho : OptsWf ⟨some box, prox, zoom⟩)
    (hbf : BoxFit chk ⟨some box, prox, zoom⟩) (hn : NumbersOk ⟨some box, prox, zoom⟩ s.radius)
    (ks : List GridKey) (hks : KeysFor (Content.run cs) (.range st en) ks)
    (n : ℕ) (hlim : ks.length ≤ n) :
    ∃ inside all, s.getMatching M H chk ⟨.range st en, lang⟩ ⟨some box, prox, zoom⟩ n = some inside ∧
      s.getMatching M H chk ⟨.range st en, lang⟩ ⟨none, prox, zoom⟩ n = some all ∧
      inside.Perm (all.filter (fun r => decide (box.minX ≤ r.entry.x ∧ r.entry.x ≤ box.maxX ∧
        box.minY ≤ r.entry.y ∧ r.entry.y ≤ box.maxY))) := by
  have hplan : s.fetchPlan chk (.range st en) = some (st, en, .singlePhrase) := by
    unfold Store.fetchPlan; simp [hsingle]
  obtain ⟨out, h1, h2⟩ := query_content o cs hc hscore b hrun db hfin hsmall s hs M H chk
    ⟨.range st en, lang⟩ ⟨some box, prox, zoom⟩ ho hbf hn st en hplan hst ks hks.1 hks.2 n hlim
  obtain ⟨out', h1', h2'⟩ := query_content o cs hc hscore b hrun db hfin hsmall s hs M H chk
    ⟨.range st en, lang⟩ ⟨none, prox, zoom⟩ ⟨by simp, ho.2⟩ (fun _ => nofun) hn st en hplan hst ks hks.1 hks.2 n hlim
  refine ⟨out, out', h1, h1', h2.trans (List.Perm.trans (List.Perm.of_eq ?_) (h2'.filter _).symm)⟩
  unfold answer
  rw [List.filter_flatMap]
  refine List.flatMap_congr ?_
  intro k _
  rw [List.filter_map, List.filter_filter]
  refine congrArg (List.map (report ⟨none, prox, zoom⟩ s.radius _)) (List.filter_congr ?_)
  intro e _
  have : decide (InBox ⟨none, prox, zoom⟩ e) = true := decide_eq_true trivial
  rw [this, Bool.and_true]
  rfl

/-- C19. When one stored key answers, the order is the stored order (best relevance first,
then score, then tile number, then id): a box removes results without reordering. -/
theorem C19_box_keeps_order (o : IterOrder) (cs : List Call) (hc : ∀ c ∈ cs, c.Wf)
    (hscore : ∀ c ∈ cs, ∀ e ∈ c.entries, e.score ≤ 15)
    (b : Builder) (hrun : Builder.run cs = some b)
    (db : SMap Bytes Bytes) (hfin : finish o b = some db) (hsmall : SmallRecords db)
    (s : Store) (hs : s.db = db) (M : KMerger) (H : Heap QueueElement.key) (chk : Bool)
    (st en lang : ℕ) (hst : st < 2 ^ 32) (hsingle : ¬ (st ∈ s.bounds ∧ en ∈ s.bounds))
    (opts : MatchOpts) (ho : OptsWf opts) (hbf : BoxFit chk opts) (hprox : opts.proximity = none)
    (k : GridKey) (hks : KeysFor (Content.run cs) (.range st en) [k])
    (n : ℕ) (hlim : 1 ≤ n) :
    s.getMatching M H chk ⟨.range st en, lang⟩ opts n =
      some (((readBack (((Content.run cs k).getD []).map stored)).filter
        (fun e => decide (InBox opts e))).map
          (report opts s.radius (langMatches lang k.langSet))) := by
  have hr := refines_run hc hrun
  have hb := hr.wf
  have hplan : s.fetchPlan chk (.range st en) = some (st, en, .singlePhrase) := by
    unfold Store.fetchPlan; simp [hsingle]
  have hn : NumbersOk opts s.radius := fun h => absurd hprox h
  have hks' : ∀ k', k' ∈ [k] ↔ k' ∈ b.data.map Prod.fst ∧ st ≤ k'.phraseId ∧ k'.phraseId < en := by
    intro k'; rw [hks.2, content_isSome_iff hc hrun]; rfl
  have hrows := queryRows_eq (mk := ⟨.range st en, lang⟩) (laidOut_finish hb hfin hsmall) hs hplan hst
  have hperm := single_rows_perm hb hfin hks.1 hks'
  rw [List.map_singleton] at hperm
  have hsing := List.perm_singleton.1 hperm
  obtain ⟨q, dropped, out, h1, h2, h3⟩ := getMatching_rows (H := H) (n := n) hrows _
    (rowElement_rows (laidOut_finish hb hfin hsmall) ho hbf hn M ⟨.range st en, lang⟩) (Or.inl hlim)
  rw [h1]
  have hmem : (k.dbKey .singlePhrase, (SMap.find (k.dbKey .singlePhrase) db).getD []) ∈
      db.filter (inRange .singlePhrase st en) := by rw [hsing]; simp
  have hkd := ((hks' k).1 (by simp)).1
  obtain ⟨p, hpd, rfl⟩ := List.mem_map.1 hkd
  obtain ⟨k, e⟩ := p
  have hkw : k.Wf := hb.keys _ hpd
  have hf := find_finish hb hfin hkw
  rw [(SMap.mem_iff_find hb.sorted).1 hpd, Option.map_some] at hf
  have hget := C06_history_is_map_of_sets o cs hc hscore b hrun db hfin hsmall s hs k hkw
  obtain ⟨ces, hces⟩ := Option.isSome_iff_exists.1 ((content_isSome_iff hc hrun k).2 hkd)
  unfold Store.get at hget
  rw [hs, hf, hces] at hget
  simp only [Option.map_some, Option.map_eq_some_iff, Option.some.injEq, exists_eq_right] at hget
  simp only [hf, Option.getD_some] at hmem hsing
  have hlen := hsmall _ (List.mem_filter.1 hmem).1
  have hord := record_query_order (o := o) (radius := s.radius) M (hb.entries _ hpd).1 (hb.entries _ hpd).2
    (low_run hc hscore hrun _ hpd) hlen (langMatches lang k.langSet) ho false (boxFit_false _) hprox hget
  have hrow : rowOut M s ⟨.range st en, lang⟩ opts (k.dbKey .singlePhrase, encodeValue o e) =
      ((readBack (ces.map stored)).filter (fun e => decide (InBox opts e))).map
          (report opts s.radius (langMatches lang k.langSet)) := by
    unfold rowOut
    rw [matchesLanguage_spec _ _ hkw, Option.bind_some, hord]; rfl
  rw [hsing, List.map_singleton, hrow] at h2
  simp only [hces, Option.getD_some]
  generalize ((readBack (ces.map stored)).filter (fun e => decide (InBox opts e))).map
          (report opts s.radius (langMatches lang k.langSet)) = L at h2
  congr 1
  cases L with
  | nil =>
    have hq : q = [] := by
      have := h2.size
      rw [show ([[]] : List (List MatchEntry)).filterMap elemOf = [] from rfl] at this
      exact List.length_eq_zero_iff.1 (by simpa using this)
    subst hq
    exact List.perm_nil.1 h3.perm
  | cons x t =>
    have hq : q.length = 1 := by
      have := h2.size
      simp only [List.filterMap_cons, elemOf, List.filterMap_nil, List.length_singleton] at this
      omega
    obtain ⟨y, rfl⟩ := List.length_eq_one_iff.1 hq
    have hy : y = ⟨x, t⟩ := by
      have := h2.perm.mem_iff.1 (List.mem_append_left _ (List.mem_singleton.2 rfl))
      simpa [elemOf] using this
    subst hy
    have := h3.eq_flatten (List.Perm.refl _) (by simp)
    simpa [QueueElement.stream] using this

/-- Two of the four results of the example lie in the box. -/
example : KeysFor (Content.run exampleCalls) (.range 3 9) [⟨3, 1⟩] ∧
    ¬ (3 ∈ (Store.new exampleDb).bounds ∧ 9 ∈ (Store.new exampleDb).bounds) ∧
    (Store.new exampleDb).getMatching listMerger (listHeap _) true ⟨.range 3 9, 1⟩
      ⟨some ⟨2, 2, 5, 6⟩, none, 6⟩ 1 =
    some [⟨⟨lit 0.6, 7, 2, 2, 9, 1⟩, true, 0, lit 7⟩,
      ⟨⟨lit 0.4, 3, 5, 6, 7, 8⟩, true, 0, lit 3⟩] := by
  refine ⟨?_, by decide +kernel, by decide +kernel⟩
  have h := keysFor_exists exampleCalls_wf exampleBuilder_run (.range 3 9)
  have e : ((exampleBuilder.data.map Prod.fst).filter
    (fun k => decide (InPhrase (.range 3 9) k.phraseId))) = [⟨3, 1⟩] := by
    decide +kernel
  rw [e] at h
  exact h

/-! ## C24 -/

/-- C24 is false: with a limit of zero, a query that meets a row with a result panics
(`peek_min().unwrap()` on an empty heap), whatever the heap. -/
theorem C24_zero_limit_panics :
    ∃ b : Builder, b.Wf ∧ ∃ db, finish .id b = some db ∧ SmallRecords db ∧
      ∀ H : Heap QueueElement.key,
        (Store.new db).getMatching listMerger H false ⟨.exact 3, 1⟩ .default 0 = none := by
  refine ⟨exampleBuilder, (refines_run exampleCalls_wf exampleBuilder_run).wf, exampleDb,
    exampleDb_finish, exampleDb_small, ?_⟩
  intro H
  have h1 : (Store.new exampleDb).queryRows false ⟨.exact 3, 1⟩ =
      some [(GridKey.dbKey .singlePhrase ⟨3, 1⟩,
        (SMap.find (GridKey.dbKey .singlePhrase ⟨3, 1⟩) exampleDb).getD [])] := by decide +kernel
  have h2 : ((Store.new exampleDb).rowElement listMerger false ⟨.exact 3, 1⟩ .default
      (GridKey.dbKey .singlePhrase ⟨3, 1⟩,
        (SMap.find (GridKey.dbKey .singlePhrase ⟨3, 1⟩) exampleDb).getD [])).map Option.isSome =
      some true := by decide +kernel
  obtain ⟨x, hx, hx'⟩ := Option.map_eq_some_iff.1 h2
  obtain ⟨e, rfl⟩ := Option.isSome_iff_exists.1 hx'
  unfold Store.getMatching
  rw [h1]
  simp only [Option.bind_eq_bind, Option.bind_some]
  unfold Store.fillQueue
  rw [hx]
  simp only [Option.bind_eq_bind, Option.bind_some]
  unfold Store.pushRow
  rw [if_pos (by simp), (H.peekMin_none []).2 rfl]
  rfl

/-- Two scores of one relevance. -/
def nanWitness : Builder :=
  Builder.new.append ⟨1, 1⟩ [⟨1, 3, 5, 6, 7, 8⟩, ⟨1, 2, 5, 6, 9, 8⟩]

/-- C24 is false: with a radius that is not a number, merging two scores of one relevance
panics (`partial_cmp().unwrap()`). -/
theorem C24_nan_radius_panics :
    nanWitness.Wf ∧ ∃ db, finish .id nanWitness = some db ∧ SmallRecords db ∧
      (Store.openWith db 14 0 .nan [] 0).getMatching listMerger (listHeap _) false
        ⟨.exact 1, 1⟩ ⟨none, some (5, 6), 14⟩ 10 = none := by
  refine ⟨wf_append wf_new (by decide) (by decide), (finish .id nanWitness).get (by decide +kernel),
    by simp, by decide +kernel, by decide +kernel⟩

/-- C24 is false: with debug assertions, a box that ends before it starts panics. Without them the
same query has no results. -/
theorem C24_box_panics :
    ∃ b : Builder, b.Wf ∧ ∃ db, finish .id b = some db ∧ SmallRecords db ∧
      (Store.new db).getMatching listMerger (listHeap _) true ⟨.exact 3, 1⟩
        ⟨some ⟨5, 6, 2, 2⟩, none, 6⟩ 10 = none ∧
      (Store.new db).getMatching listMerger (listHeap _) false ⟨.exact 3, 1⟩
        ⟨some ⟨5, 6, 2, 2⟩, none, 6⟩ 10 = some [] :=
  ⟨exampleBuilder, (refines_run exampleCalls_wf exampleBuilder_run).wf, exampleDb,
    exampleDb_finish, exampleDb_small, by decide +kernel, by decide +kernel⟩

/-- C24. What does hold: a query with a limit of at least one, on a store produced by the
builder, returns when the radius is a number and the zoom at most 16 (or there is no
proximity point), and, with overflow checks and debug assertions, the phrase is not the largest
id and the corners of the box are in order. Missing: a limit of zero, not-a-number radii, and, in
builds with checks, the largest id and boxes that end before they start, for all of which the
claim is false. -/
theorem C24_query_returns_partial (db : SMap Bytes Bytes) (hd : LaidOut db)
    (s : Store) (hs : s.db = db) (M : KMerger) (H : Heap QueueElement.key) (chk : Bool)
    (mk : MatchKey) (hst : mk.phrase.start < 2 ^ 32)
    (hmax : chk = true → mk.phrase ≠ .exact (2 ^ 32 - 1))
    (opts : MatchOpts) (ho : OptsWf opts) (hbf : BoxFit chk opts)
    (hn : opts.proximity = none ∨ (opts.zoom ≤ 16 ∧ s.radius ≠ .nan)) (n : ℕ) (hlim : 1 ≤ n) :
    ∃ out, s.getMatching M H chk mk opts n = some out := by
  have hn' : NumbersOk opts s.radius := by
    intro h; rcases hn with h' | h'
    · exact absurd h' h
    · exact h'
  have hplan : ∃ plan, s.fetchPlan chk mk.phrase = some plan := by
    revert hmax
    cases mk.phrase with
    | exact id =>
      intro hmax
      unfold Store.fetchPlan
      simp only
      rw [if_neg]
      · exact ⟨_, rfl⟩
      · rw [Bool.and_eq_true, decide_eq_true_iff]
        rintro ⟨h1, h2⟩
        exact hmax h1 (by congr 1; omega)
    | range a c =>
      intro _
      unfold Store.fetchPlan
      simp only
      split <;> exact ⟨_, rfl⟩
  obtain ⟨⟨st, en, m⟩, hp⟩ := hplan
  obtain ⟨_, _, out, h, _⟩ := getMatching_rows (H := H) (n := n)
    (queryRows_eq hd hs hp (fetchPlan_start hp hst)) _
    (rowElement_rows hd ho hbf hn' M mk) (Or.inl hlim)
  exact ⟨out, h⟩

end Carmen
