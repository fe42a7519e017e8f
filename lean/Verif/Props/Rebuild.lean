import Verif.Props.Bins

/-!
# C63: several builds in one directory

`finish` opens the directory with `create_if_missing` and puts its rows
(builder.rs:184-189, 217, 226, 235). Nothing is deleted, so a second build in the same directory
lands on top of the first.
-/

namespace Carmen
open Format Spec Builder

/-! ## Specification -/

namespace Spec

/-- The content of a directory after several builds, given as their histories: a key has the
content of the last build that has the key. -/
def Content.layers (css : List (List Call)) : Content :=
  css.foldl (fun c cs k => (Content.run cs k).orElse fun _ => c k) (fun _ => none)

end Spec

/-- Builds run one after the other in one directory (builder.rs:184-240), each with its hash order;
`none`: one of them never returns. -/
def finishAll : SMap Bytes Bytes → List (IterOrder × Builder) → Option (SMap Bytes Bytes)
  | db, [] => some db
  | db, (o, b) :: t => (finishInto o db b).bind fun db' => finishAll db' t

/-! ## Lemmas -/

theorem finishInto_eq_some {o : IterOrder} {b : Builder} {old db : SMap Bytes Bytes} :
    finishInto o old b = some db ↔
      (finishPuts o b).2 = true ∧ applyPuts old (finishPuts o b).1 = db := by
  unfold finishInto
  simp only
  cases h : (finishPuts o b).2 <;> simp

/-- The row of a phrase after a build on top of an old database. -/
theorem find_finishInto {o : IterOrder} {b : Builder} (hb : b.Wf) {old db : SMap Bytes Bytes}
    (h : finishInto o old b = some db) {k : GridKey} (hk : k.Wf) :
    SMap.find (k.dbKey .singlePhrase) db =
      ((SMap.find k b.data).map (encodeValue o)).orElse fun _ =>
        SMap.find (k.dbKey .singlePhrase) old := by
  obtain ⟨h1, rfl⟩ := finishInto_eq_some.1 h
  cases hf : SMap.find k b.data with
  | none =>
    rw [find_applyPuts_of_not_mem]
    · rfl
    · intro p hp hpk
      obtain ⟨e, he, _⟩ := put_single hb hk hp hpk
      rw [(SMap.mem_iff_find hb.sorted).1 he] at hf
      cases hf
  | some e =>
    have hm := (SMap.mem_iff_find hb.sorted).2 hf
    refine find_applyPuts_of_unique (single_mem_finishPuts h1 hm) ?_
    intro p hp hpk
    obtain ⟨e', he', hv⟩ := put_single hb hk hp hpk
    rw [(SMap.mem_iff_find hb.sorted).1 he'] at hf
    cases hf
    exact hv

theorem find_bounds_into {o : IterOrder} {b : Builder} {old db : SMap Bytes Bytes}
    (h : finishInto o old b = some db) :
    SMap.find boundsKey db = some (boundsValue b.bounds) := by
  obtain ⟨h1, rfl⟩ := finishInto_eq_some.1 h
  rw [finishPuts_snd] at h1
  refine find_applyPuts_of_unique ?_ ?_
  · unfold finishPuts
    simp only [h1, if_true]
    simp
  · intro p hp hpk
    rcases mem_finishPuts_cases hp with ⟨r, hr, rfl⟩ | ⟨g, hg, bin, hbin, le, hle, rfl⟩ | ⟨rfl, _⟩
    · exact absurd hpk (dbKey_ne_bounds _ _)
    · exact absurd hpk (dbKey_ne_bounds _ _)
    · rfl

/-- Rows of a database that only builds have written. -/
structure BuiltRows (db : SMap Bytes Bytes) : Prop where
  sorted : SMap.Sorted db
  rows : ∀ r ∈ db, (∃ k : GridKey, k.Wf ∧ r.1 = k.dbKey .singlePhrase) ∨
    (∃ k : GridKey, k.Wf ∧ r.1 = k.dbKey .prefixBin) ∨ r.1 = boundsKey

theorem builtRows_nil : BuiltRows [] := ⟨List.Pairwise.nil, by simp⟩

theorem BuiltRows.finishInto {o : IterOrder} {b : Builder} (hb : b.Wf) {old db : SMap Bytes Bytes}
    (ho : BuiltRows old) (h : finishInto o old b = some db) : BuiltRows db := by
  obtain ⟨h1, rfl⟩ := finishInto_eq_some.1 h
  have hsort := applyPuts_sorted ho.sorted (finishPuts o b).1
  refine ⟨hsort, fun r hr => ?_⟩
  rcases mem_of_find_applyPuts ((SMap.mem_iff_find hsort).1 hr) with hf | hp
  · exact ho.rows _ ((SMap.mem_iff_find ho.sorted).2 hf)
  · rcases mem_finishPuts_cases hp with ⟨x, hx, e⟩ | ⟨g, hg, bin, hbin, le, hle, e⟩ | ⟨e, _⟩
    · exact Or.inl ⟨x.1, hb.keys _ hx, congrArg Prod.fst e⟩
    · exact Or.inr (Or.inl ⟨_, bin_key_wf hb hg hbin hle, congrArg Prod.fst e⟩)
    · exact Or.inr (Or.inr (congrArg Prod.fst e))

/-- The rows scanned by `keys` are the phrase rows. -/
theorem BuiltRows.phraseRows {s : Store} (h : BuiltRows s.db) {r : Bytes × Bytes} :
    r ∈ s.phraseRows ↔ r ∈ s.db ∧ ∃ k : GridKey, k.Wf ∧ r.1 = k.dbKey .singlePhrase := by
  unfold Store.phraseRows
  rw [takeWhile_eq_filter h.sorted, List.mem_filter]
  · refine and_congr_right fun hr => ?_
    rcases h.rows r hr with ⟨k, hk, e⟩ | ⟨k, hk, e⟩ | e
    · refine iff_of_true ?_ ⟨k, hk, e⟩
      rw [e]; simp [GridKey.dbKey, TypeMarker.byte]
    · refine iff_of_false (by rw [e]; simp [GridKey.dbKey, TypeMarker.byte]) ?_
      rintro ⟨k', _, e'⟩
      have := congrArg List.head? (e.symm.trans e')
      simp [GridKey.dbKey, TypeMarker.byte] at this
    · refine iff_of_false (by rw [e]; simp [boundsKey]) ?_
      rintro ⟨k', _, e'⟩
      exact dbKey_ne_bounds _ _ (e'.symm.trans e)
  · intro x y hx hy hxy hp
    rcases h.rows x hx with ⟨k, hk, e⟩ | ⟨k, hk, e⟩ | e
    · rw [e]; simp [GridKey.dbKey, TypeMarker.byte]
    · exfalso
      rcases h.rows y hy with ⟨k', hk', e'⟩ | ⟨k', hk', e'⟩ | e'
      · rw [e, e'] at hxy; exact lt_asymm hxy (single_lt_bin k' k)
      · rw [e'] at hp; simp [GridKey.dbKey, TypeMarker.byte] at hp
      · rw [e'] at hp; simp [boundsKey] at hp
    · exfalso
      rcases h.rows y hy with ⟨k', hk', e'⟩ | ⟨k', hk', e'⟩ | e'
      · rw [e, e'] at hxy; exact lt_asymm hxy (dbKey_lt_bounds _ k')
      · rw [e'] at hp; simp [GridKey.dbKey, TypeMarker.byte] at hp
      · rw [e'] at hp; simp [boundsKey] at hp

/-- Reading a key after a build on top of another database. -/
theorem get_finishInto {o : IterOrder} {old db : SMap Bytes Bytes} {cs : List Call}
    (hc : ∀ c ∈ cs, c.Wf) (hscore : ∀ c ∈ cs, ∀ e ∈ c.entries, e.score ≤ 15)
    {b : Builder} (hrun : Builder.run cs = some b) (hfin : finishInto o old b = some db)
    {s s0 : Store} (hs : s.db = db) (hs0 : s0.db = old) {k : GridKey} (hk : k.Wf)
    (hsmall : ∀ v, SMap.find (k.dbKey .singlePhrase) db = some v → v.length < 2 ^ 32) :
    s.get k = match Content.run cs k with
      | some es => some (some (readBack (es.map stored)))
      | none => s0.get k := by
  have hr := refines_run hc hrun
  have hf := find_finishInto hr.wf hfin hk
  cases hd : SMap.find k b.data with
  | none =>
    rw [(hr.absent k).1 hd]
    unfold Store.get
    rw [hs, hf, hd, hs0]; rfl
  | some e =>
    cases hcn : Content.run cs k with
    | none => rw [(hr.absent k).2 hcn] at hd; cases hd
    | some es =>
      have hm := (SMap.mem_iff_find hr.wf.sorted).2 hd
      rw [hd] at hf
      have hes : ∀ v ∈ es, v.Wf ∧ v.score ≤ 15 := by
        intro v hv
        obtain ⟨c, hcc, hvc⟩ := content_entries hcn v hv
        exact ⟨call_entries_wf (hc c hcc) v hvc, hscore c hcc v hvc⟩
      have := decode_encode (o := o) (hr.wf.entries _ hm).1 (hr.wf.entries _ hm).2
        (hr.present k e es hd hcn) hes (hsmall _ hf)
      unfold Store.get
      rw [hs, hf]
      simp only [Option.map_some, Option.orElse]
      rw [this]; rfl

theorem finishAll_append (db : SMap Bytes Bytes) (l : List (IterOrder × Builder)) (o : IterOrder)
    (b : Builder) : finishAll db (l ++ [(o, b)]) =
      (finishAll db l).bind fun db' => finishInto o db' b := by
  induction l generalizing db with
  | nil =>
    simp only [List.nil_append, finishAll, Option.bind_some]
    cases finishInto o db b <;> rfl
  | cons x t ih =>
    obtain ⟨o', b'⟩ := x
    simp only [List.cons_append, finishAll, ih]
    cases finishInto o' db b' <;> rfl

theorem layers_append (css : List (List Call)) (cs : List Call) (k : GridKey) :
    Content.layers (css ++ [cs]) k =
      (Content.run cs k).orElse fun _ => Content.layers css k := by
  simp [Content.layers]

/-- A build: its hash order, the calls and the builder they lead to. -/
structure Build where
  order : IterOrder
  calls : List Call
  builder : Builder

/-- The calls respect the Rust types, scores are at most 15, and no call fails. -/
structure Build.Ok (x : Build) : Prop where
  wf : ∀ c ∈ x.calls, c.Wf
  score : ∀ c ∈ x.calls, ∀ e ∈ c.entries, e.score ≤ 15
  run : Builder.run x.calls = some x.builder

/-- What the builds leave in the directory. -/
def Build.all (l : List Build) : Option (SMap Bytes Bytes) :=
  finishAll [] (l.map fun x => (x.order, x.builder))

theorem Build.all_append {l : List Build} {x : Build} :
    Build.all (l ++ [x]) = (Build.all l).bind fun db => finishInto x.order db x.builder := by
  unfold Build.all
  rw [List.map_append, List.map_singleton, finishAll_append]

theorem Build.builtRows {l : List Build} (h : ∀ x ∈ l, x.Ok) {db : SMap Bytes Bytes}
    (hdb : Build.all l = some db) : BuiltRows db := by
  induction l using List.reverseRecOn generalizing db with
  | nil => cases hdb; exact builtRows_nil
  | append_singleton l x ih =>
    rw [Build.all_append] at hdb
    obtain ⟨old, h1, h2⟩ := Option.bind_eq_some_iff.1 hdb
    have hx := h x (by simp)
    exact (ih (fun y hy => h y (by simp [hy])) h1).finishInto (refines_run hx.wf hx.run).wf h2

/-! ## Theorems -/

/-- **C63**: after any number of builds in one directory a key reads back as the last build that
has the key says. Earlier builds are not forgotten. -/
theorem C63_last_build_wins (l : List Build) (h : ∀ x ∈ l, x.Ok) (db : SMap Bytes Bytes)
    (hdb : Build.all l = some db) (hsmall : SmallRecords db) (s : Store) (hs : s.db = db)
    (k : GridKey) (hk : k.Wf) :
    s.get k =
      some ((Content.layers (l.map (·.calls)) k).map fun es => readBack (es.map stored)) := by
  have hsm : ∀ v, SMap.find (k.dbKey .singlePhrase) db = some v → v.length < 2 ^ 32 := fun v hv =>
    hsmall _ ((SMap.mem_iff_find (Build.builtRows h hdb).sorted).2 hv)
  clear hsmall
  induction l using List.reverseRecOn generalizing db s with
  | nil =>
    cases hdb
    unfold Store.get
    rw [hs]; rfl
  | append_singleton l x ih =>
    rw [Build.all_append] at hdb
    obtain ⟨old, h1, h2⟩ := Option.bind_eq_some_iff.1 hdb
    have hx := h x (by simp)
    rw [get_finishInto hx.wf hx.score hx.run h2 hs (s0 := Store.new old) rfl hk hsm,
      List.map_append, List.map_singleton, layers_append]
    cases hc : Content.run x.calls k with
    | some es => rfl
    | none =>
      simp only [Option.orElse]
      refine ih (fun y hy => h y (by simp [hy])) old h1 _ rfl ?_
      intro v hv
      refine hsm v ?_
      have hr := refines_run hx.wf hx.run
      rw [find_finishInto hr.wf h2 hk, (hr.absent k).2 hc]
      exact hv

/-- **C63**: `keys()` lists every key that some build has, each once. -/
theorem C63_keys (l : List Build) (h : ∀ x ∈ l, x.Ok) (db : SMap Bytes Bytes)
    (hdb : Build.all l = some db) (s : Store) (hs : s.db = db) :
    ∃ ks, s.keys = some ks ∧ ks.Nodup ∧
      ∀ k, k ∈ ks ↔ k.Wf ∧ ∃ x ∈ l, Content.run x.calls k ≠ none := by
  have hrows := Build.builtRows h hdb
  have hmem : ∀ r, r ∈ s.phraseRows ↔
      r ∈ db ∧ ∃ k : GridKey, k.Wf ∧ r.1 = k.dbKey .singlePhrase := by
    intro r
    rw [BuiltRows.phraseRows (s := s) (by rw [hs]; exact hrows), hs]
  have hdec : ∀ r ∈ s.phraseRows, ∃ k, Store.decodeKey r.1 = some k ∧
      r.1 = k.dbKey .singlePhrase ∧ k.Wf := by
    intro r hr
    obtain ⟨_, k, hk, e⟩ := (hmem r).1 hr
    exact ⟨k, by rw [e]; exact decodeKey_dbKey _ hk, e, hk⟩
  have hmap : s.keys = some (s.phraseRows.map (fun r => (Store.decodeKey r.1).getD ⟨0, 0⟩)) := by
    unfold Store.keys
    refine mapM_eq_some ?_
    intro r hr
    obtain ⟨k, hk, _⟩ := hdec r hr
    rw [hk]; rfl
  have hfind : ∀ k : GridKey, k.Wf → ((SMap.find (k.dbKey .singlePhrase) db).isSome = true ↔
      ∃ x ∈ l, Content.run x.calls k ≠ none) := by
    intro k hk
    clear hmap hdec hmem hs hrows
    induction l using List.reverseRecOn generalizing db with
    | nil => cases hdb; simp [SMap.find]
    | append_singleton l x ih =>
      rw [Build.all_append] at hdb
      obtain ⟨old, h1, h2⟩ := Option.bind_eq_some_iff.1 hdb
      have hx := h x (by simp)
      have hr := refines_run hx.wf hx.run
      rw [find_finishInto hr.wf h2 hk]
      have ih' := ih (fun y hy => h y (by simp [hy])) old h1
      cases hd : SMap.find k x.builder.data with
      | none =>
        simp only [Option.map_none, Option.orElse]
        rw [ih']
        have := (hr.absent k).1 hd
        constructor
        · rintro ⟨y, hy, hn⟩; exact ⟨y, by simp [hy], hn⟩
        · rintro ⟨y, hy, hn⟩
          rcases List.mem_append.1 hy with hy | hy
          · exact ⟨y, hy, hn⟩
          · rw [List.mem_singleton.1 hy] at hn
            exact absurd this hn
      | some e =>
        refine iff_of_true rfl ⟨x, by simp, fun hn => ?_⟩
        rw [(hr.absent k).2 hn] at hd; cases hd
  refine ⟨_, hmap, ?_, ?_⟩
  · unfold List.Nodup
    rw [List.pairwise_map]
    refine (phraseRows_sorted (by rw [hs]; exact hrows.sorted)).imp_of_mem ?_
    intro r r' hr hr' hlt heq
    obtain ⟨k, hk, e1, _⟩ := hdec r hr
    obtain ⟨k', hk', e2, _⟩ := hdec r' hr'
    rw [hk, hk'] at heq
    simp only [Option.getD_some] at heq
    rw [e1, e2, heq] at hlt
    exact lt_irrefl _ hlt
  · intro k
    rw [List.mem_map]
    constructor
    · rintro ⟨r, hr, rfl⟩
      obtain ⟨k, hk, e, hkw⟩ := hdec r hr
      rw [hk]
      refine ⟨hkw, (hfind k hkw).1 ?_⟩
      have := (SMap.mem_iff_find hrows.sorted).1 ((hmem r).1 hr).1
      rw [← e, this]; rfl
    · rintro ⟨hk, hx⟩
      obtain ⟨v, hv⟩ := Option.isSome_iff_exists.1 ((hfind k hk).2 hx)
      exact ⟨(k.dbKey .singlePhrase, v), (hmem _).2 ⟨(SMap.mem_iff_find hrows.sorted).2 hv, k, hk, rfl⟩,
        by rw [decodeKey_dbKey _ hk]; rfl⟩

/-- **C63**: the boundaries are those of the last build. -/
theorem C63_boundaries (l : List Build) (x : Build) (h : ∀ y ∈ l ++ [x], y.Ok)
    (db : SMap Bytes Bytes) (hdb : Build.all (l ++ [x]) = some db) (zoom typeId : ℕ) (radius : F64)
    (bboxes : List BBox) (maxScore : F64) :
    (Store.openWith db zoom typeId radius bboxes maxScore).bounds = x.builder.bounds := by
  rw [Build.all_append] at hdb
  obtain ⟨old, h1, h2⟩ := Option.bind_eq_some_iff.1 hdb
  have hx := h x (by simp)
  unfold Store.openWith
  simp only [find_bounds_into h2]
  exact C14_boundaries_roundtrip _ (refines_run hx.wf hx.run).wf.bounds

/-! ## Bins are not rebuilt -/

/-- The build of some calls. -/
def buildOf (cs : List Call) : Build := ⟨.id, cs, (Builder.run cs).getD Builder.new⟩

/-- A first build: two phrases in bins of their own. -/
def firstCalls : List Call :=
  [.append ⟨5, 1⟩ [⟨1, 3, 5, 6, 7, 8⟩], .append ⟨7, 1⟩ [⟨1, 2, 5, 6, 9, 8⟩], .loadBounds [5, 7, 9]]

/-- A second build: another phrase of the first bin, the second phrase written anew, and one bin
for all of them. -/
def secondCalls : List Call :=
  [.append ⟨6, 1⟩ [⟨1, 1, 5, 6, 10, 8⟩], .append ⟨7, 1⟩ [⟨1, 2, 5, 6, 11, 8⟩], .loadBounds [5, 9]]

theorem buildOf_ok {cs : List Call} (h : ∀ c ∈ cs, c.Wf)
    (hs : ∀ c ∈ cs, ∀ e ∈ c.entries, e.score ≤ 15) (hr : (Builder.run cs).isSome = true) :
    (buildOf cs).Ok := by
  obtain ⟨b, hb⟩ := Option.isSome_iff_exists.1 hr
  exact ⟨h, hs, by unfold buildOf; rw [hb]; rfl⟩

theorem rebuild_ok : ∀ x ∈ [buildOf firstCalls, buildOf secondCalls], x.Ok := by
  intro x hx
  simp only [List.mem_cons, List.not_mem_nil, or_false] at hx
  rcases hx with rfl | rfl
  · refine buildOf_ok ?_ (by decide +kernel) (by decide +kernel)
    intro c hc
    simp only [firstCalls, List.mem_cons, List.not_mem_nil, or_false] at hc
    rcases hc with rfl | rfl | rfl <;> simp only [Call.Wf] <;> decide +kernel
  · refine buildOf_ok ?_ (by decide +kernel) (by decide +kernel)
    intro c hc
    simp only [secondCalls, List.mem_cons, List.not_mem_nil, or_false] at hc
    rcases hc with rfl | rfl | rfl <;> simp only [Call.Wf] <;> decide +kernel

/-- **C63** does not extend to prefix bins: after two builds in one directory phrases 5, 6 and 7
are stored with features 7, 10 and 11, but the range from 5 to 9 answered from bins misses feature 7
(its bin was written over) and returns feature 9 (of a bin that the second build does not have). -/
theorem C63_bins_out_of_date :
    ∃ db, Build.all [buildOf firstCalls, buildOf secondCalls] = some db ∧ SmallRecords db ∧
      (Store.new db).bounds = [5, 9] ∧
      (({ Store.new db with bounds := [] } : Store).getMatching listMerger (listHeap _) false
        ⟨.range 5 9, 1⟩ .default 99).map (List.map (fun r : MatchEntry => r.entry.id)) =
          some [7, 11, 10] ∧
      ((Store.new db).getMatching listMerger (listHeap _) false ⟨.range 5 9, 1⟩ .default 99).map
        (List.map (fun r : MatchEntry => r.entry.id)) = some [11, 9, 10] := by
  refine ⟨(Build.all [buildOf firstCalls, buildOf secondCalls]).get (by decide +kernel), by simp,
    by decide +kernel, by decide +kernel, by decide +kernel, by decide +kernel⟩

/-- The two builds meet the hypotheses of the theorems; what they say for a key of both and a key
of the first only. -/
example : (∀ x ∈ [buildOf firstCalls, buildOf secondCalls], x.Ok) ∧
    Content.layers [firstCalls, secondCalls] ⟨7, 1⟩ = some [⟨1, 2, 5, 6, 11, 8⟩] ∧
    Content.layers [firstCalls, secondCalls] ⟨5, 1⟩ = some [⟨1, 3, 5, 6, 7, 8⟩] ∧
    Content.layers [firstCalls, secondCalls] ⟨8, 1⟩ = none :=
  ⟨rebuild_ok, by decide +kernel, by decide +kernel, by decide +kernel⟩

end Carmen
