import Verif.Props.Rebuild
import Verif.Lemmas.Layout
import Verif.Props.Debug

/-!
# C72: whatever builders leave in a directory can be read
-/

namespace Carmen
open Format Spec Builder

section
variable {db : SMap Bytes Bytes} {s : Store}

theorem Spec.LaidOut.builtRows (h : LaidOut db) : BuiltRows db := by
  refine ⟨h.sorted, fun r hr => ?_⟩
  rcases laid_row h hr with ⟨m, k, v, rec, hk, rfl, -, -⟩ | hb
  · cases m with
    | singlePhrase => exact Or.inl ⟨k, hk, rfl⟩
    | prefixBin => exact Or.inr (Or.inl ⟨k, hk, rfl⟩)
  · exact Or.inr (Or.inr hb)

/-- A row of a phrase and what is read from it. -/
def rowRead (r : Bytes × Bytes) : GridKey × List GridEntry :=
  ((Store.decodeKey r.1).getD ⟨0, 0⟩, (decodeValue r.2).getD [])

theorem phraseRow_read (h : LaidOut db) (hs : s.db = db)
    {r : Bytes × Bytes} (hr : r ∈ s.phraseRows) :
    r ∈ db ∧ ∃ k es, k.Wf ∧ r.1 = k.dbKey .singlePhrase ∧ Store.decodeKey r.1 = some k ∧
      decodeValue r.2 = some es ∧ rowRead r = (k, es) ∧ s.get k = some (some es) := by
  subst hs
  obtain ⟨hr1, k, hk, hkr⟩ := h.builtRows.phraseRows.1 hr
  refine ⟨hr1, k, ?_⟩
  rcases laid_row h hr1 with ⟨m, k', v, rec, hk', he, hrec, -⟩ | hb
  · have h1 : Store.decodeKey r.1 = some k := by rw [hkr]; exact decodeKey_dbKey _ hk
    have h2 := hrec.decodeValue
    have h3 : r.2 = v := congrArg Prod.snd he
    rw [← h3] at h2
    refine ⟨_, hk, hkr, h1, h2, ?_, ?_⟩
    · unfold rowRead
      rw [h1, h2]; rfl
    · unfold Store.get
      rw [← hkr, (SMap.mem_iff_find h.sorted).1 (show (r.1, r.2) ∈ s.db from hr1)]
      simp only
      rw [h2]; rfl
  · exact absurd (hkr.symm.trans hb) (dbKey_ne_bounds _ _)

theorem phraseRows_sublist (h : LaidOut db) (hs : s.db = db) :
    s.phraseRows.Sublist db := by
  subst hs
  exact List.takeWhile_sublist _

theorem laid_iter (h : LaidOut db) (hs : s.db = db) :
    s.iter = some (s.phraseRows.map rowRead) ∧
      s.keys = some ((s.phraseRows.map rowRead).map Prod.fst) := by
  constructor
  · unfold Store.iter
    refine mapM_eq_some ?_
    intro r hr
    obtain ⟨-, k, es, -, -, h1, h2, h3, -⟩ := phraseRow_read h hs hr
    rw [h1, h2, h3]; rfl
  · unfold Store.keys
    rw [List.map_map]
    refine mapM_eq_some ?_
    intro r hr
    obtain ⟨-, k, es, -, -, h1, h2, h3, -⟩ := phraseRow_read h hs hr
    rw [h1]
    simp [h3]

theorem laid_keys_nodup (h : LaidOut db) (hs : s.db = db) :
    ((s.phraseRows.map rowRead).map Prod.fst).Nodup := by
  rw [List.map_map]
  have hn : s.phraseRows.Nodup := (phraseRows_sublist h hs).nodup h.sorted.keys_nodup.of_map
  refine (List.nodup_map_iff_inj_on hn).2 ?_
  intro x hx y hy hxy
  obtain ⟨hx1, k, es, hk, h1, -, -, h2, h5⟩ := phraseRow_read h hs hx
  obtain ⟨hy1, k', es', hk', h3, -, -, h4, h6⟩ := phraseRow_read h hs hy
  simp only [Function.comp_apply, h2, h4] at hxy
  subst hxy
  have e : x.1 = y.1 := h1.trans h3.symm
  have f1 := (SMap.mem_iff_find h.sorted).1 (show (x.1, x.2) ∈ db from hx1)
  have f2 := (SMap.mem_iff_find h.sorted).1 (show (y.1, y.2) ∈ db from hy1)
  rw [e, f2] at f1
  exact Prod.ext e (Option.some.inj f1).symm

end

/-- **C77**: from rows that follow the layout, whoever wrote them, the store lists keys and their entries, each
key once. Reading one of the listed keys gives its entries, and no other key has any. -/
theorem C77_listing (db : SMap Bytes Bytes) (hd : LaidOut db)
    (s : Store) (hs : s.db = db) :
    ∃ l, s.iter = some l ∧ s.keys = some (l.map Prod.fst) ∧ (l.map Prod.fst).Nodup ∧
      (∀ p ∈ l, p.1.Wf ∧ s.get p.1 = some (some p.2)) ∧
      ∀ k : GridKey, k.Wf → k ∉ l.map Prod.fst → s.get k = some none := by
  obtain ⟨h1, h2⟩ := laid_iter hd hs
  refine ⟨_, h1, h2, laid_keys_nodup hd hs, ?_, ?_⟩
  · intro p hp
    obtain ⟨r, hr, rfl⟩ := List.mem_map.1 hp
    obtain ⟨-, k, es, hk, -, -, -, h3, h4⟩ := phraseRow_read hd hs hr
    rw [h3]
    exact ⟨hk, h4⟩
  · intro k hk hn
    unfold Store.get
    cases hf : SMap.find (k.dbKey .singlePhrase) s.db with
    | none => rfl
    | some v =>
      exfalso
      apply hn
      subst hs
      have hm := (SMap.mem_iff_find hd.sorted).2 hf
      have hr : (k.dbKey .singlePhrase, v) ∈ s.phraseRows :=
        hd.builtRows.phraseRows.2 ⟨hm, k, hk, rfl⟩
      obtain ⟨-, k', es, hk', h3, -, -, h4, -⟩ := phraseRow_read hd rfl hr
      have : k' = k := ((dbKey_inj hk hk' h3).2).symm
      subst this
      exact List.mem_map.2 ⟨_, List.mem_map.2 ⟨_, hr, rfl⟩, by rw [h4]⟩

/-- **C77**: a query that is not answered from prefix bins, with a limit of at least the number of keys,
returns what it asks for of the listing. -/
theorem C77_query (db : SMap Bytes Bytes) (hd : LaidOut db)
    (s : Store) (hs : s.db = db) (l : List (GridKey × List GridEntry)) (hl : s.iter = some l)
    (M : KMerger) (H : Heap QueueElement.key) (chk : Bool) (phrase : MatchPhrase) (lang : ℕ)
    (hst : phrase.start < 2 ^ 32) (hmax : phrase ≠ .exact (2 ^ 32 - 1))
    (hbins : ∀ st en, phrase = .range st en → ¬ (st ∈ s.bounds ∧ en ∈ s.bounds))
    (opts : MatchOpts) (ho : OptsWf opts) (hbf : BoxFit chk opts) (hn : NumbersOk opts s.radius)
    (n : ℕ) (hlim : l.length ≤ n) :
    ∃ out, s.getMatching M H chk ⟨phrase, lang⟩ opts n = some out ∧
      out.Perm ((l.filter fun p => decide (InPhrase phrase p.1.phraseId)).flatMap fun p =>
        (p.2.filter fun e => decide (InBox opts e)).map
          (report opts s.radius (langMatches lang p.1.langSet))) := by
  obtain ⟨st, en, hp, hin, hst'⟩ : ∃ st en, s.fetchPlan chk phrase = some (st, en, .singlePhrase) ∧
      (∀ x, InPhrase phrase x ↔ st ≤ x ∧ x < en) ∧ st < 2 ^ 32 := by
    cases phrase with
    | exact id =>
      have hid : id + 1 < 2 ^ 32 := by
        have h1 : id < 2 ^ 32 := hst
        have h2 : id ≠ 2 ^ 32 - 1 := fun h => hmax (by rw [h])
        omega
      refine ⟨id, id + 1, ?_, ?_, hst⟩
      · unfold Store.fetchPlan
        simp only
        rw [if_neg (by simp; omega), Nat.mod_eq_of_lt hid]
      · intro x
        unfold InPhrase
        omega
    | range a c =>
      refine ⟨a, c, ?_, fun x => Iff.rfl, hst⟩
      unfold Store.fetchPlan
      simp only
      rw [if_neg (hbins a c rfl)]
  have hl' := (laid_iter hd hs).1
  rw [hl] at hl'
  cases hl'
  -- the rows of the query
  have hrows : (db.filter (inRange .singlePhrase st en)).Perm
      (s.phraseRows.filter fun r => decide (InPhrase phrase (rowRead r).1.phraseId)) := by
    have hnd : db.Nodup := hd.sorted.keys_nodup.of_map
    rw [List.perm_ext_iff_of_nodup (hnd.filter _) (((phraseRows_sublist hd hs).nodup hnd).filter _)]
    intro r
    rw [List.mem_filter, List.mem_filter]
    constructor
    · rintro ⟨h1, h2⟩
      rcases laid_row hd h1 with ⟨m, k, v, rec, hk, rfl, -, -⟩ | hb
      · obtain ⟨rfl, h3⟩ := (inRange_dbKey hk _).1 h2
        have hr : (k.dbKey .singlePhrase, v) ∈ s.phraseRows := by
          subst hs
          exact hd.builtRows.phraseRows.2 ⟨h1, k, hk, rfl⟩
        refine ⟨hr, decide_eq_true ((hin _).2 ?_)⟩
        obtain ⟨-, k', es, hk', h4, -, -, h5, -⟩ := phraseRow_read hd hs hr
        have : k' = k := ((dbKey_inj hk hk' h4).2).symm
        rw [h5, this]
        exact h3
      · unfold inRange at h2
        rw [hb, matchesKey_bounds] at h2
        cases h2
    · rintro ⟨h1, h2⟩
      obtain ⟨h3, k, es, hk, h4, -, -, h5, -⟩ := phraseRow_read hd hs h1
      refine ⟨h3, ?_⟩
      have h6 := (hin _).1 (of_decide_eq_true h2)
      rw [h5] at h6
      rw [show r = (k.dbKey .singlePhrase, r.2) from Prod.ext h4 rfl, inRange_dbKey hk]
      exact ⟨rfl, h6⟩
  have hlen : (db.filter (inRange .singlePhrase st en)).length ≤ n := by
    rw [hrows.length_eq]
    refine (List.length_filter_le _ _).trans ?_
    rw [List.length_map] at hlim
    exact hlim
  obtain ⟨out, g1, g2, -⟩ := getMatching_all (H := H) (n := n)
    (queryRows_eq (mk := ⟨phrase, lang⟩) hd hs hp hst') _
    (rowElement_rows hd ho hbf hn M ⟨phrase, lang⟩) hlen
  refine ⟨out, g1, g2.trans ?_⟩
  refine (hrows.flatMap_right _).trans ?_
  rw [List.filter_map, List.flatMap_map]
  refine List.Perm.flatMap_left _ fun r hr => ?_
  have hr' := hrows.mem_iff.2 hr
  obtain ⟨o, k, e, es, hk, -, -, he, -, -, h1, -, -, h2⟩ :=
    row_answers hd ho hbf hn M ⟨phrase, lang⟩ hr'
  obtain ⟨-, k', es', hk', h3, -, h4, h5, -⟩ :=
    phraseRow_read hd hs (List.mem_filter.1 hr).1
  have : k' = k := ((dbKey_inj hk hk' ((congrArg Prod.fst he).symm.trans h3)).2).symm
  subst this
  rw [h1] at h4
  cases h4
  rw [h5]
  exact h2

/-- **C77**: every query returns, also one answered from prefix bins, unless it is for the largest phrase
id in a build with overflow checks. -/
theorem C77_returns (db : SMap Bytes Bytes) (hd : LaidOut db)
    (s : Store) (hs : s.db = db) (M : KMerger) (H : Heap QueueElement.key) (chk : Bool)
    (mk : MatchKey) (hst : mk.phrase.start < 2 ^ 32)
    (hmax : chk = true → mk.phrase ≠ .exact (2 ^ 32 - 1))
    (opts : MatchOpts) (ho : OptsWf opts) (hbf : BoxFit chk opts)
    (hn : opts.proximity = none ∨ (opts.zoom ≤ 16 ∧ s.radius ≠ .nan)) (n : ℕ) (hlim : 1 ≤ n) :
    ∃ out, s.getMatching M H chk mk opts n = some out :=
  C24_query_returns_partial db hd s hs M H chk mk hst hmax opts ho hbf hn n hlim

/-- **C72**: whatever builders have left in a directory, the store lists keys and their entries, each
key once. Reading one of the listed keys gives its entries, and no other key has any. -/
theorem C72_listing (db : SMap Bytes Bytes) (hd : Directory db) (hsmall : SmallRecords db)
    (s : Store) (hs : s.db = db) :
    ∃ l, s.iter = some l ∧ s.keys = some (l.map Prod.fst) ∧ (l.map Prod.fst).Nodup ∧
      (∀ p ∈ l, p.1.Wf ∧ s.get p.1 = some (some p.2)) ∧
      ∀ k : GridKey, k.Wf → k ∉ l.map Prod.fst → s.get k = some none :=
  C77_listing db (hd.laidOut hsmall) s hs

/-- **C72**: a query that is not answered from prefix bins, with a limit of at least the number of keys,
returns what it asks for of the listing. -/
theorem C72_query (db : SMap Bytes Bytes) (hd : Directory db) (hsmall : SmallRecords db)
    (s : Store) (hs : s.db = db) (l : List (GridKey × List GridEntry)) (hl : s.iter = some l)
    (M : KMerger) (H : Heap QueueElement.key) (chk : Bool) (phrase : MatchPhrase) (lang : ℕ)
    (hst : phrase.start < 2 ^ 32) (hmax : phrase ≠ .exact (2 ^ 32 - 1))
    (hbins : ∀ st en, phrase = .range st en → ¬ (st ∈ s.bounds ∧ en ∈ s.bounds))
    (opts : MatchOpts) (ho : OptsWf opts) (hbf : BoxFit chk opts) (hn : NumbersOk opts s.radius)
    (n : ℕ) (hlim : l.length ≤ n) :
    ∃ out, s.getMatching M H chk ⟨phrase, lang⟩ opts n = some out ∧
      out.Perm ((l.filter fun p => decide (InPhrase phrase p.1.phraseId)).flatMap fun p =>
        (p.2.filter fun e => decide (InBox opts e)).map
          (report opts s.radius (langMatches lang p.1.langSet))) :=
  C77_query db (hd.laidOut hsmall) s hs l hl M H chk phrase lang hst hmax hbins opts ho hbf hn n hlim

/-- **C72**: every query returns, also one answered from prefix bins, unless it is for the largest phrase
id in a build with overflow checks. -/
theorem C72_returns (db : SMap Bytes Bytes) (hd : Directory db) (hsmall : SmallRecords db)
    (s : Store) (hs : s.db = db) (M : KMerger) (H : Heap QueueElement.key) (chk : Bool)
    (mk : MatchKey) (hst : mk.phrase.start < 2 ^ 32)
    (hmax : chk = true → mk.phrase ≠ .exact (2 ^ 32 - 1))
    (opts : MatchOpts) (ho : OptsWf opts) (hbf : BoxFit chk opts)
    (hn : opts.proximity = none ∨ (opts.zoom ≤ 16 ∧ s.radius ≠ .nan)) (n : ℕ) (hlim : 1 ≤ n) :
    ∃ out, s.getMatching M H chk mk opts n = some out :=
  C77_returns db (hd.laidOut hsmall) s hs M H chk mk hst hmax opts ho hbf hn n hlim

/-- **C72**: wherever a build in a directory stops, every key reads as before it or as after the whole
build. -/
theorem C72_interrupted (o : IterOrder) (old new : SMap Bytes Bytes) (b : Builder) (hb : b.Wf)
    (hfin : finishInto o old b = some new) (done : List (Bytes × Bytes))
    (hdone : done <+: (finishPuts o b).1) (k : GridKey) (hk : k.Wf) (s s₀ s₁ : Store)
    (hs : s.db = applyPuts old done) (hs₀ : s₀.db = old) (hs₁ : s₁.db = new) :
    s.get k = s₀.get k ∨ s.get k = s₁.get k := by
  unfold Store.get
  rw [hs, hs₀, hs₁]
  by_cases hex : ∃ p ∈ done, p.1 = k.dbKey .singlePhrase
  · right
    obtain ⟨p, hp, hpk⟩ := hex
    obtain ⟨e, he, hv⟩ := put_single hb hk (hdone.subset hp) hpk
    have h1 : SMap.find (k.dbKey .singlePhrase) (applyPuts old done) = some (encodeValue o e) := by
      refine find_applyPuts_of_unique (v := encodeValue o e) ?_ ?_
      · rw [← hpk, ← hv]; exact hp
      · intro q hq hqk
        obtain ⟨e', he', hv'⟩ := put_single hb hk (hdone.subset hq) hqk
        have := (SMap.mem_iff_find hb.sorted).1 he
        rw [(SMap.mem_iff_find hb.sorted).1 he'] at this
        cases this
        exact hv'
    rw [h1, find_finishInto hb hfin hk, (SMap.mem_iff_find hb.sorted).1 he]
    rfl
  · left
    rw [find_applyPuts_of_not_mem fun p hp hpk => hex ⟨p, hp, hpk⟩]

/-! ## A directory with a finished build and half of another -/

def firstBuild : Builder :=
  ((Builder.new.append ⟨1, 1⟩ [⟨1, 3, 5, 6, 7, 8⟩]).append ⟨2, 1⟩ [⟨lit 0.8, 2, 4, 4, 9, 1⟩])

def secondBuild : Builder :=
  ((Builder.new.append ⟨1, 1⟩ [⟨lit 0.6, 1, 8, 8, 3, 0⟩]).append ⟨3, 2⟩ [⟨1, 4, 9, 9, 2, 0⟩])

theorem firstBuild_wf : firstBuild.Wf :=
  wf_append (wf_append wf_new (by decide +kernel) (by decide +kernel)) (by decide +kernel)
    (by decide +kernel)

theorem secondBuild_wf : secondBuild.Wf :=
  wf_append (wf_append wf_new (by decide +kernel) (by decide +kernel)) (by decide +kernel)
    (by decide +kernel)

/-- What is left when the second build stops after its first row. -/
def halfDone : SMap Bytes Bytes :=
  applyPuts (applyPuts [] (finishPuts .id firstBuild).1) ((finishPuts .id secondBuild).1.take 1)

theorem halfDone_directory : Directory halfDone :=
  .build (.build .empty .id firstBuild firstBuild_wf _ (List.prefix_refl _)) .id secondBuild
    secondBuild_wf _ (List.take_prefix _ _)

/-- Phrase 1 reads as the second build says, phrase 2 as the first, and phrase 3 is not there. -/
example : Directory halfDone ∧ SmallRecords halfDone ∧
    (Store.new halfDone).iter = some [(⟨1, 1⟩, [⟨lit 0.6, 1, 8, 8, 3, 0⟩]),
      (⟨2, 1⟩, [⟨lit 0.8, 2, 4, 4, 9, 1⟩])] ∧
    (finishInto .id (applyPuts [] (finishPuts .id firstBuild).1) secondBuild).isSome = true ∧
    (Store.new halfDone).get ⟨3, 2⟩ = some none ∧
    (Store.new halfDone).getMatching listMerger (listHeap _) true ⟨.range 0 9, 1⟩
      ⟨some ⟨2, 2, 5, 6⟩, none, 6⟩ 2 = some [⟨⟨lit 0.8, 2, 4, 4, 9, 1⟩, true, 0, lit 2⟩] := by
  exact ⟨halfDone_directory, by decide +kernel, by decide +kernel, by decide +kernel,
    by decide +kernel, by decide +kernel⟩

end Carmen
