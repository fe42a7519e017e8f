import Verif.Lemmas.FinishCongr
import Verif.Lemmas.LangWord
import Verif.Props.Format

/-!
# C02 - C12, C14: the builder and what a store reads back

A history is a list of `Call`s on a new builder; `Spec.Content.run` is what it should
leave behind. `finish o b = some db`: the build with hash-map iteration order `o` returned
and left the database `db`. A store is any `Store` on that database.
-/

namespace Carmen
open Format Spec Builder

/-- Records stay below 4 GiB (offsets inside a record are 32 bit wide). -/
def SmallRecords (db : SMap Bytes Bytes) : Prop := ∀ r ∈ db, r.2.length < 2 ^ 32

instance (db : SMap Bytes Bytes) : Decidable (SmallRecords db) := by
  unfold SmallRecords; infer_instance

/-! ## A concrete history used in the examples -/

/-- Three keys, two languages, repeated and unordered entries, a renumbering, boundaries. -/
def exampleCalls : List Call :=
  [.append ⟨0, 1⟩ [⟨lit 0.4, 3, 5, 6, 7, 8⟩, ⟨1, 15, 65535, 0, 2 ^ 24 - 1, 255⟩,
      ⟨lit 0.4, 3, 5, 6, 7, 8⟩],
   .insert ⟨1, allLangs⟩ [⟨lit 0.8, 1, 1, 2, 3, 4⟩],
   .compactAppend ⟨0, 1⟩ (lit 0.6) 7 9 1 [(1, 1), (2, 2)],
   .append ⟨2, 256⟩ [⟨1, 0, 0, 0, 0, 0⟩],
   .renumber [3, 1, 2],
   .loadBounds [0, 2, 4]]

/-- The calls of the example respect the Rust types. -/
theorem exampleCalls_wf : ∀ c ∈ exampleCalls, c.Wf := by
  intro c hc
  simp only [exampleCalls, List.mem_cons, List.not_mem_nil, or_false] at hc
  rcases hc with rfl | rfl | rfl | rfl | rfl | rfl <;>
    simp only [Call.Wf] <;> decide +kernel

/-- The example history succeeds, finishes, and its records are small. -/
example : ∃ b db, Builder.run exampleCalls = some b ∧ finish .rev b = some db ∧
    SmallRecords db ∧ db.length = 7 := by
  refine ⟨(Builder.run exampleCalls).get (by decide +kernel),
    (finish .rev ((Builder.run exampleCalls).get (by decide +kernel))).get (by decide +kernel),
    by simp, by simp, by decide +kernel, by decide +kernel⟩

/-! ## C06, C04: reading back -/

/-- C06. After any history of successful calls with scores at most 15, every key reads
back as the map-of-sets specification says. -/
theorem C06_history_is_map_of_sets (o : IterOrder) (cs : List Call) (hc : ∀ c ∈ cs, c.Wf)
    (hscore : ∀ c ∈ cs, ∀ e ∈ c.entries, e.score ≤ 15)
    (b : Builder) (hrun : Builder.run cs = some b)
    (db : SMap Bytes Bytes) (hfin : finish o b = some db) (hsmall : SmallRecords db)
    (s : Store) (hs : s.db = db) (k : GridKey) (hk : k.Wf) :
    s.get k = some ((Content.run cs k).map (fun es => readBack (es.map stored))) := by
  have hr := refines_run hc hrun
  have hf := find_finish hr.wf hfin hk
  unfold Store.get
  rw [hs, hf]
  cases hd : SMap.find k b.data with
  | none =>
    rw [(hr.absent k).1 hd]; rfl
  | some e =>
    cases hcn : Content.run cs k with
    | none => rw [(hr.absent k).2 hcn] at hd; cases hd
    | some es =>
      have hm := (SMap.mem_iff_find hr.wf.sorted).2 hd
      have hmem := (SMap.mem_iff_find (finish_sorted hfin) (k := k.dbKey .singlePhrase)
        (v := encodeValue o e)).2 (by rw [hf, hd]; rfl)
      have hes : ∀ v ∈ es, v.Wf ∧ v.score ≤ 15 := by
        intro v hv
        obtain ⟨c, hcc, hvc⟩ := content_entries hcn v hv
        exact ⟨call_entries_wf (hc c hcc) v hvc, hscore c hcc v hvc⟩
      have := decode_encode (o := o) (hr.wf.entries _ hm).1 (hr.wf.entries _ hm).2
        (hr.present k e es hd hcn) hes (hsmall _ hmem)
      simp only [Option.map_some]
      rw [this]; rfl

example : ∀ c ∈ exampleCalls, ∀ e ∈ c.entries, e.score ≤ 15 := by decide +kernel

/-- What the specification says for a key of the example. -/
example : (Content.run exampleCalls ⟨3, 1⟩).map (fun es => readBack (es.map stored)) =
    some [⟨1, 15, 65535, 0, 2 ^ 24 - 1, 255⟩, ⟨lit 0.6, 7, 2, 2, 9, 1⟩,
      ⟨lit 0.6, 7, 1, 1, 9, 1⟩, ⟨lit 0.4, 3, 5, 6, 7, 8⟩] := by decide +kernel

/-- C04. When every entry written respects the documented widths, a key reads back exactly
the distinct entries written under it, best first. -/
theorem C04_exact_read_back (o : IterOrder) (cs : List Call) (hc : ∀ c ∈ cs, c.Wf)
    (hexact : ∀ c ∈ cs, ∀ e ∈ c.entries, Exact e)
    (b : Builder) (hrun : Builder.run cs = some b)
    (db : SMap Bytes Bytes) (hfin : finish o b = some db) (hsmall : SmallRecords db)
    (s : Store) (hs : s.db = db) (k : GridKey) (hk : k.Wf) :
    s.get k = some ((Content.run cs k).map readBack) := by
  rw [C06_history_is_map_of_sets o cs hc (fun c hcc e he => (hexact c hcc e he).1) b hrun db hfin
    hsmall s hs k hk]
  cases h : Content.run cs k with
  | none => rfl
  | some es =>
    have : es.map stored = es := by
      conv_rhs => rw [← List.map_id es]
      refine List.map_congr_left (fun v hv => ?_)
      obtain ⟨c, hcc, hvc⟩ := content_entries h v hv
      exact stored_of_exact (hexact c hcc v hvc)
    simp only [Option.map_some, this]

/-- The order and the multiplicity in which C04 and C06 say entries come back. -/
theorem C04_read_back_order (es : List GridEntry) (h : ∀ e ∈ es, e.x < 2 ^ 16 ∧ e.y < 2 ^ 16) :
    (∀ e, e ∈ readBack es ↔ e ∈ es) ∧
      (readBack es).Pairwise (fun a b => entryKey b < entryKey a) :=
  ⟨fun _ => mem_readBack, readBack_pairwise h⟩

example : ∀ c ∈ exampleCalls, ∀ e ∈ c.entries, Exact e := by decide +kernel

/-! ## C05: over-large scores -/

/-- C05 is false: relevance 0.4 written with score 16 reads back as relevance 0.6. -/
theorem C05_relevance_not_kept :
    ∃ (k : GridKey) (e : GridEntry), k.Wf ∧ e.Wf ∧
      ∃ db, finish .id (Builder.new.append k [e]) = some db ∧ SmallRecords db ∧
        ∃ es, (Store.new db).get k = some (some es) ∧ ∀ r ∈ es, r.relev ≠ e.relev := by
  refine ⟨⟨1, 1⟩, ⟨lit 0.4, 16, 2, 3, 4, 5⟩, by decide +kernel, by decide +kernel,
    (finish .id (Builder.new.append ⟨1, 1⟩ [⟨lit 0.4, 16, 2, 3, 4, 5⟩])).get (by decide +kernel),
    by simp, by decide +kernel, [⟨lit 0.6, 0, 2, 3, 4, 5⟩], by decide +kernel, by decide +kernel⟩

attribute [local irreducible] interleave idComp in
/-- What decoding gives back of an entry whatever its score. -/
theorem storedAs_fields {v : GridEntry} (hv : v.Wf) {rs z i : ℕ} (h : StoredAs v rs z i) :
    (entryOf rs z i).x = v.x ∧ (entryOf rs z i).y = v.y ∧
      (entryOf rs z i).id = v.id % 2 ^ 24 ∧ (entryOf rs z i).hash = v.hash := by
  obtain ⟨-, hz, hi⟩ := h
  obtain ⟨-, hx, hy, -, hh⟩ := hv
  have hh' : v.hash < 256 := by simpa using hh
  have hd : deinterleave z = (v.x, v.y) := by rw [hz]; exact deinterleave_interleave hx hy
  have hs : i = 256 * (v.id % 2 ^ 24) + v.hash := by rw [hi]; exact idComp_eq hh'
  refine ⟨congrArg Prod.fst hd, congrArg Prod.snd hd, ?_, ?_⟩
  · show i >>> 8 = _
    rw [Nat.shiftRight_eq_div_pow]; omega
  · show i &&& 255 = _
    rw [show (255 : ℕ) = 2 ^ 8 - 1 from rfl, Nat.and_two_pow_sub_one_eq_mod]; omega

attribute [local irreducible] interleave idComp in
/-- The entry decoded, whatever the score. -/
theorem entryOf_storedAs {v : GridEntry} (hv : v.Wf) {rs z i : ℕ} (h : StoredAs v rs z i) :
    entryOf rs z i = storedAny v := by
  obtain ⟨h1, h2, h3, h4⟩ := storedAs_fields hv h
  have hrel : relevToInt v.relev = relevCode v.relev := by
    have hq : ∀ q : ℚ, (F64.feq v.relev (lit q) = true) = (v.relev = lit q) := by
      intro q
      unfold F64.feq
      rw [decide_eq_true_eq]
      refine propext ⟨fun h => h.2, fun h => ⟨?_, h⟩⟩
      rw [h]; unfold lit F64.ofRat F64.ofRounded
      split_ifs <;> simp
    unfold relevToInt relevCode
    simp only [hq]
  have hc : relevCode v.relev < 4 := by
    unfold relevCode; split_ifs <;> omega
  have h5 : (entryOf rs z i).relev = (storedAny v).relev := by
    have e1 : rs >>> 4 = relevCode v.relev ||| v.score / 16 := by
      rw [h.1, rsByte, hrel, Nat.shiftRight_or_distrib, Nat.shiftLeft_shiftRight,
        Nat.shiftRight_eq_div_pow]
    show relevOfInt (rs >>> 4) = _
    rw [e1]
    unfold storedAny
    simp only
    generalize relevCode v.relev ||| v.score / 16 = n
    rcases n with _ | _ | _ | n <;> simp [relevOfInt]
  have h6 : (entryOf rs z i).score = v.score % 16 := by
    show rs &&& 15 = _
    rw [h.1, rsByte, show (15 : ℕ) = 2 ^ 4 - 1 from rfl, Nat.and_two_pow_sub_one_eq_mod]
    apply Nat.eq_of_testBit_eq
    intro j
    rw [Nat.testBit_mod_two_pow, show (16 : ℕ) = 2 ^ 4 from rfl, Nat.testBit_mod_two_pow,
      Nat.testBit_or, Nat.testBit_shiftLeft]
    by_cases hj : j < 4
    · have : ¬ 4 ≤ j := by omega
      simp [hj, this]
    · simp [hj]
  generalize entryOf rs z i = r at *
  cases r
  simp only at h1 h2 h3 h4 h5 h6
  subst h1 h2 h3 h4 h5 h6
  rfl

/-- C05, what holds: exactly what a key reads back for entries of any score. The tile, the
phrase hash and the low 24 bits of the id are kept, the score loses all but its low four bits,
and those are mixed into the relevance. (Missing: the relevance itself; it is kept for scores at
most 15, see below, and lost otherwise as shown above.) -/
theorem C05_score_overflow_partial (o : IterOrder) (cs : List Call) (hc : ∀ c ∈ cs, c.Wf)
    (b : Builder) (hrun : Builder.run cs = some b)
    (db : SMap Bytes Bytes) (hfin : finish o b = some db) (hsmall : SmallRecords db)
    (s : Store) (hs : s.db = db) (k : GridKey) (hk : k.Wf) (es : List GridEntry)
    (hes : Content.run cs k = some es) :
    ∃ rs, s.get k = some (some rs) ∧ ∀ r, r ∈ rs ↔ ∃ e ∈ es, r = storedAny e := by
  have hr := refines_run hc hrun
  have hf := find_finish hr.wf hfin hk
  cases hd : SMap.find k b.data with
  | none => rw [(hr.absent k).1 hd] at hes; cases hes
  | some e =>
    have hm := (SMap.mem_iff_find hr.wf.sorted).2 hd
    have hmem := (SMap.mem_iff_find (finish_sorted hfin) (k := k.dbKey .singlePhrase)
      (v := encodeValue o e)).2 (by rw [hf, hd]; rfl)
    have hw := hr.wf.entries _ hm
    obtain ⟨rec, hrec, hshape⟩ := encodeValue_readsAs o e hw.2 (hsmall _ hmem)
    refine ⟨shapeEntries (normEntry o e), ?_, ?_⟩
    · unfold Store.get
      rw [hs, hf, hd]
      simp only [Option.map_some]
      rw [hrec.decodeValue, hshape]
      rfl
    · have hh := hr.present k e es hd hes
      have hwf : ∀ v ∈ es, v.Wf := by
        intro v hv
        obtain ⟨c, hcc, hvc⟩ := content_entries hes v hv
        exact call_entries_wf (hc c hcc) v hvc
      intro r
      rw [shapeEntries_eq]
      simp only [List.mem_map]
      constructor
      · rintro ⟨⟨rs, z, i⟩, ht, rfl⟩
        rw [mem_triples_normEntry hw.1] at ht
        obtain ⟨v, hv, hst⟩ := (hh rs z i).1 ht
        exact ⟨v, hv, entryOf_storedAs (hwf v hv) hst⟩
      · rintro ⟨v, hv, rfl⟩
        have hst : StoredAs v (rsByte v.relev v.score) (interleave v.x v.y) (idComp v.id v.hash) :=
          ⟨rfl, rfl, rfl⟩
        refine ⟨(rsByte v.relev v.score, interleave v.x v.y, idComp v.id v.hash), ?_,
          entryOf_storedAs (hwf v hv) hst⟩
        rw [mem_triples_normEntry hw.1]
        exact (hh _ _ _).2 ⟨v, hv, hst⟩

/-- Scores at most 15 do no harm. -/
theorem C05_documented_scores {e : GridEntry} (h : e.score ≤ 15) : storedAny e = stored e := by
  have h0 : e.score / 16 = 0 := by omega
  have h1 : e.score % 16 = e.score := by omega
  unfold storedAny stored
  rw [h0, h1, Nat.or_zero]
  congr 1
  unfold relevCode
  by_cases h4 : e.relev = lit 0.4
  · simp [h4]
  · by_cases h6 : e.relev = lit 0.6
    · simp [h6, show ¬ lit 0.6 = lit 0.4 by decide +kernel]
    · by_cases h8 : e.relev = lit 0.8
      · simp [h8, show ¬ lit 0.8 = lit 0.4 by decide +kernel,
          show ¬ lit 0.8 = lit 0.6 by decide +kernel]
      · simp [h4, h6, h8]

example : storedAny ⟨lit 0.4, 0x25, 2, 3, 2 ^ 24 + 4, 5⟩ = ⟨lit 0.8, 5, 2, 3, 4, 5⟩ := by
  decide +kernel

/-! ## C07: bytes do not depend on append order or hash order -/

/-- The boundaries a history loads last. -/
def lastBounds (cs : List Call) : List ℕ :=
  cs.foldl (fun b c => match c with
    | .loadBounds bs => bs
    | _ => b) []

theorem bounds_runFrom {b b' : Builder} {cs : List Call} (h : b.runFrom cs = some b') :
    b'.bounds = cs.foldl (fun b c => match c with
      | .loadBounds bs => bs
      | _ => b) b.bounds := by
  induction cs generalizing b with
  | nil => simp only [Builder.runFrom, Option.some.injEq] at h; subst h; rfl
  | cons c t ih =>
    unfold Builder.runFrom at h
    cases hb : b.call c with
    | none => rw [hb] at h; cases h
    | some b₁ =>
      rw [hb] at h
      rw [ih h, List.foldl_cons]
      congr 1
      cases c with
      | insert k es => simp only [Builder.call, Option.some.injEq] at hb; subst hb; rfl
      | append k es => simp only [Builder.call, Option.some.injEq] at hb; subst hb; rfl
      | compactAppend k relev score id hash tiles =>
        simp only [Builder.call, Option.some.injEq] at hb; subst hb; rfl
      | renumber map =>
        unfold Builder.call at hb
        simp only at hb
        cases hx : b.renumber map with
        | mk x y =>
          rw [hx] at hb
          cases y with
          | error e => simp at hb
          | ok u =>
            simp only [Option.some.injEq] at hb
            rw [← hb]
            have := congrArg (fun p => p.1.bounds) hx
            exact this.symm
      | loadBounds bs => simp only [Builder.call, Option.some.injEq] at hb; subst hb; rfl

/-- C07. Two histories that write the same sets of entries (in any order, with any
repetitions, split over any calls) and load the same boundaries finish with the same
database, byte for byte, whatever the iteration orders of the hash maps. The bytes of every
row, phrase row or prefix bin, are covered. (`compact_append` with an empty tile list is
excluded: it leaves an empty group in the record, see C08.) -/
theorem C07_bytes_depend_on_content (o o' : IterOrder) (cs cs' : List Call)
    (hc : ∀ c ∈ cs, c.Wf) (hc' : ∀ c ∈ cs', c.Wf)
    (hn : ∀ c ∈ cs, c.NonEmpty) (hn' : ∀ c ∈ cs', c.NonEmpty)
    (b b' : Builder) (hrun : Builder.run cs = some b) (hrun' : Builder.run cs' = some b')
    (hbounds : lastBounds cs = lastBounds cs')
    (hcontent : ∀ k, (Content.run cs k = none ↔ Content.run cs' k = none) ∧
      ∀ es es', Content.run cs k = some es → Content.run cs' k = some es' →
        ∀ e, e ∈ es ↔ e ∈ es') :
    finish o b = finish o' b' := by
  refine finish_of_content (refines_run hc hrun) (refines_run hc' hrun') (ne_run hc hn hrun)
    (ne_run hc' hn' hrun') ?_ hcontent
  rw [bounds_runFrom hrun, bounds_runFrom hrun']
  exact hbounds

/-- Two different histories with one content: entries split, reordered and repeated. -/
example :
    let cs : List Call := [.append ⟨1, 1⟩ [⟨1, 3, 5, 6, 7, 8⟩, ⟨lit 0.4, 3, 5, 6, 7, 8⟩]]
    let cs' : List Call := [.append ⟨1, 1⟩ [⟨lit 0.4, 3, 5, 6, 7, 8⟩],
      .append ⟨1, 1⟩ [⟨1, 3, 5, 6, 7, 8⟩, ⟨lit 0.4, 3, 5, 6, 7, 8⟩]]
    ∀ k, (Content.run cs k = none ↔ Content.run cs' k = none) ∧
      ∀ es es', Content.run cs k = some es → Content.run cs' k = some es' →
        ∀ e, e ∈ es ↔ e ∈ es' := by
  intro cs cs' k
  simp only [cs, cs', Content.run, List.foldl_cons, List.foldl_nil, Content.call, Content.set]
  by_cases h : k = ⟨1, 1⟩
  · subst h
    simp only [if_true]
    refine ⟨by simp, ?_⟩
    intro es es' h1 h2 e
    simp only [Option.some.injEq] at h1 h2
    subst h1 h2
    simp only [Option.getD_none, Option.getD_some, List.nil_append, List.mem_append,
      List.mem_cons, List.not_mem_nil, or_false]
    tauto
  · simp [h]

/-! ## C08: compact_append is append of one entry per tile -/

/-- C08, byte for byte: for a non-empty tile list the two calls lead to the same database,
after any history and whatever follows. -/
theorem C08_compact_append_is_append (o o' : IterOrder) (pre post : List Call)
    (hpre : ∀ c ∈ pre, c.Wf ∧ c.NonEmpty) (hpost : ∀ c ∈ post, c.Wf ∧ c.NonEmpty)
    (k : GridKey) (relev : F64) (score id hash : ℕ) (tiles : List (ℕ × ℕ)) (ht : tiles ≠ [])
    (hc : (Call.compactAppend k relev score id hash tiles).Wf)
    (b b' : Builder)
    (hrun : Builder.run (pre ++ [.compactAppend k relev score id hash tiles] ++ post) = some b)
    (hrun' : Builder.run
      (pre ++ [.append k (tileEntries relev score id hash tiles)] ++ post) = some b') :
    finish o b = finish o' b' := by
  have hca : (Call.append k (tileEntries relev score id hash tiles)).Wf :=
    ⟨hc.1, call_entries_wf hc⟩
  refine C07_bytes_depend_on_content o o' _ _ ?_ ?_ ?_ ?_ b b' hrun hrun' ?_ ?_
  · intro c hcc
    simp only [List.mem_append, List.mem_singleton] at hcc
    rcases hcc with (h | rfl) | h
    · exact (hpre c h).1
    · exact hc
    · exact (hpost c h).1
  · intro c hcc
    simp only [List.mem_append, List.mem_singleton] at hcc
    rcases hcc with (h | rfl) | h
    · exact (hpre c h).1
    · exact hca
    · exact (hpost c h).1
  · intro c hcc
    simp only [List.mem_append, List.mem_singleton] at hcc
    rcases hcc with (h | rfl) | h
    · exact (hpre c h).2
    · exact ht
    · exact (hpost c h).2
  · intro c hcc
    simp only [List.mem_append, List.mem_singleton] at hcc
    rcases hcc with (h | rfl) | h
    · exact (hpre c h).2
    · exact True.intro
    · exact (hpost c h).2
  · simp [lastBounds, List.foldl_append]
  · intro k'
    have : Content.run (pre ++ [.compactAppend k relev score id hash tiles] ++ post) =
        Content.run (pre ++ [.append k (tileEntries relev score id hash tiles)] ++ post) := by
      simp [Content.run, List.foldl_append, Content.call]
    rw [this]
    refine ⟨Iff.rfl, ?_⟩
    intro es es' h1 h2
    rw [h1] at h2
    cases h2
    exact fun _ => Iff.rfl

example : (Call.compactAppend ⟨1, 2⟩ (lit 0.6) 7 9 1 [(1, 1), (2, 2)]).Wf := by
  simp only [Call.Wf]; decide +kernel

/-- C08, as seen by readers, for every tile list, also the empty one. -/
theorem C08_compact_append_reads_as_append (o o' : IterOrder) (pre post : List Call)
    (hpre : ∀ c ∈ pre, c.Wf) (hpost : ∀ c ∈ post, c.Wf)
    (hscore : ∀ c ∈ pre ++ post, ∀ e ∈ c.entries, e.score ≤ 15)
    (k : GridKey) (relev : F64) (score id hash : ℕ) (tiles : List (ℕ × ℕ)) (hs : score ≤ 15)
    (hc : (Call.compactAppend k relev score id hash tiles).Wf)
    (b b' : Builder)
    (hrun : Builder.run (pre ++ [.compactAppend k relev score id hash tiles] ++ post) = some b)
    (hrun' : Builder.run
      (pre ++ [.append k (tileEntries relev score id hash tiles)] ++ post) = some b')
    (db db' : SMap Bytes Bytes) (hfin : finish o b = some db) (hfin' : finish o' b' = some db')
    (hsmall : SmallRecords db) (hsmall' : SmallRecords db')
    (k' : GridKey) (hk' : k'.Wf) : (Store.new db).get k' = (Store.new db').get k' := by
  have hca : (Call.append k (tileEntries relev score id hash tiles)).Wf :=
    ⟨hc.1, call_entries_wf hc⟩
  have hts : ∀ e ∈ tileEntries relev score id hash tiles, e.score ≤ 15 := by
    intro e he
    obtain ⟨t, _, rfl⟩ := List.mem_map.1 he
    exact hs
  rw [C06_history_is_map_of_sets o _ ?_ ?_ b hrun db hfin hsmall (Store.new db) rfl k' hk',
    C06_history_is_map_of_sets o' _ ?_ ?_ b' hrun' db' hfin' hsmall' (Store.new db') rfl k' hk']
  · have : Content.run (pre ++ [.compactAppend k relev score id hash tiles] ++ post) =
        Content.run (pre ++ [.append k (tileEntries relev score id hash tiles)] ++ post) := by
      simp [Content.run, List.foldl_append, Content.call]
    rw [this]
  · intro c hcc
    simp only [List.mem_append, List.mem_singleton] at hcc
    rcases hcc with (h | rfl) | h
    · exact hpre c h
    · exact hca
    · exact hpost c h
  · intro c hcc
    simp only [List.mem_append, List.mem_singleton] at hcc
    rcases hcc with (h | rfl) | h
    · exact hscore c (by simp [h])
    · exact hts
    · exact hscore c (by simp [h])
  · intro c hcc
    simp only [List.mem_append, List.mem_singleton] at hcc
    rcases hcc with (h | rfl) | h
    · exact hpre c h
    · exact hc
    · exact hpost c h
  · intro c hcc
    simp only [List.mem_append, List.mem_singleton] at hcc
    rcases hcc with (h | rfl) | h
    · exact hscore c (by simp [h])
    · exact hts
    · exact hscore c (by simp [h])

/-- The restriction to non-empty tile lists in the byte-wise statement is needed: with no
tiles `compact_append` leaves an empty group in the record and `append` does not. -/
theorem C08_empty_tiles_differ_on_disk :
    finish .id (Builder.new.compactAppend ⟨1, 1⟩ 1 3 4 5 []) ≠
      finish .id (Builder.new.append ⟨1, 1⟩ []) := by decide +kernel

/-! ## C09, C10: renumber -/

/-- C09. `renumber` succeeds exactly when every phrase id is below the length of the map
and no two keys are sent to one. -/
theorem C09_renumber_succeeds_iff (b : Builder) (hb : b.Wf) (map : List ℕ) :
    (b.renumber map).2 = .ok () ↔
      (∀ r ∈ b.data, r.1.phraseId < map.length) ∧
      (∀ r ∈ b.data, ∀ r' ∈ b.data, map[r.1.phraseId]? = map[r'.1.phraseId]? →
        r.1.langSet = r'.1.langSet → r.1 = r'.1) := by
  constructor
  · intro h
    obtain ⟨_, h2, h3, _⟩ := renumberLoop_ok b.data SMap.sorted_nil h
    refine ⟨?_, ?_⟩
    · intro r hr
      obtain ⟨k', hk', _⟩ := h2 r hr
      exact (List.getElem?_eq_some_iff.1 (newKey_eq_some.1 hk').1).1
    · intro r hr r' hr' h1 hl
      rcases List.Pairwise.forall_of_forall_of_flip (l := b.data)
        (R := fun a b => a = b ∨ newKey map a.1 ≠ newKey map b.1) (fun a _ => Or.inl rfl)
        (h3.imp (fun h => Or.inr h)) (h3.imp (fun h => Or.inr h.symm)) hr hr' with h | h
      · rw [h]
      · exact absurd (by unfold newKey; rw [h1, hl]) h
  · rintro ⟨h1, h2⟩
    refine renumberLoop_succeeds b.data ?_ ?_
    · intro r hr
      refine ⟨⟨map[r.1.phraseId]'(h1 r hr), r.1.langSet⟩, ?_, rfl⟩
      unfold newKey
      rw [List.getElem?_eq_getElem (h1 r hr)]; rfl
    · refine hb.sorted.imp_of_mem ?_
      intro a c ha hc hlt heq
      have hk : newKey map a.1 = some ⟨map[a.1.phraseId]'(h1 a ha), a.1.langSet⟩ := by
        unfold newKey; rw [List.getElem?_eq_getElem (h1 a ha)]; rfl
      obtain ⟨e1, e2⟩ := newKey_eq_some.1 hk
      obtain ⟨e3, e4⟩ := newKey_eq_some.1 (heq ▸ hk)
      have := h2 a ha c hc (by rw [e1, e3]) e4.symm
      rw [this] at hlt
      exact lt_irrefl _ hlt

/-- C09. After success the entries of `(p, langs)` are found under `(map[p], langs)` and
every key found comes from such a move. -/
theorem C09_renumber_moves (b : Builder) (hb : b.Wf) (map : List ℕ)
    (h : (b.renumber map).2 = .ok ()) (q l : ℕ) (e : BuilderEntry) :
    SMap.find ⟨q, l⟩ (b.renumber map).1.data = some e ↔
      ∃ p, SMap.find ⟨p, l⟩ b.data = some e ∧ map[p]? = some q := by
  obtain ⟨_, _, _, h4⟩ := renumberLoop_ok b.data SMap.sorted_nil h
  have := h4 ⟨q, l⟩ e
  simp only [SMap.mem_iff_find hb.sorted] at this
  rw [show SMap.find (⟨q, l⟩ : GridKey) ([] : SMap GridKey BuilderEntry) = none from rfl] at this
  simp only [reduceCtorEq, false_or] at this
  refine this.trans ?_
  constructor
  · rintro ⟨⟨p, l'⟩, h1, h2⟩
    obtain ⟨e1, e2⟩ := newKey_eq_some.1 h2
    simp only at e1 e2
    subst e2
    exact ⟨p, h1, e1⟩
  · rintro ⟨p, h1, h2⟩
    exact ⟨⟨p, l⟩, h1, newKey_eq_some.2 ⟨h2, rfl⟩⟩

/-- Non-vacuity: a builder with two phrases and a map exchanging them. -/
example : ∃ b : Builder, b.Wf ∧ b.data.length = 2 ∧ (b.renumber [1, 0]).2 = .ok () := by
  refine ⟨(Builder.new.append ⟨0, 1⟩ [⟨1, 3, 5, 6, 7, 8⟩]).append ⟨1, 1⟩ [⟨1, 3, 5, 6, 9, 8⟩],
    wf_append (wf_append wf_new (by decide +kernel) (by decide +kernel)) (by decide +kernel)
      (by decide +kernel), by decide +kernel, ?_⟩
  have h : (match (((Builder.new.append ⟨0, 1⟩ [⟨1, 3, 5, 6, 7, 8⟩]).append ⟨1, 1⟩
      [⟨1, 3, 5, 6, 9, 8⟩]).renumber [1, 0]).2 with
    | .ok () => true
    | .error _ => false) = true := by decide +kernel
  revert h
  cases (((Builder.new.append ⟨0, 1⟩ [⟨1, 3, 5, 6, 7, 8⟩]).append ⟨1, 1⟩
      [⟨1, 3, 5, 6, 9, 8⟩]).renumber [1, 0]).2 with
  | ok u => intro _; rfl
  | error e => intro h; simp at h

/-- The three keys of the C10 witness. -/
def renumberWitness : Builder :=
  ((Builder.new.append ⟨0, 1⟩ [⟨1, 3, 5, 6, 7, 8⟩]).append ⟨1, 1⟩ [⟨1, 3, 5, 6, 9, 8⟩]).append
    ⟨2, 1⟩ [⟨1, 3, 5, 6, 11, 8⟩]

/-- C10 is false: `renumber` reports a duplicate and the builder has lost two of its three
keys. -/
theorem C10_failed_renumber_loses_data :
    (∃ d, (renumberWitness.renumber [0, 0, 2]).2 = .error d) ∧
      renumberWitness.data.length = 3 ∧
      (renumberWitness.renumber [0, 0, 2]).1.data.length = 1 := by
  refine ⟨⟨.duplicate 0, ?_⟩, by decide +kernel, by decide +kernel⟩
  rfl

/-- C10, what holds: after a failed `renumber` the boundaries are unchanged and what is left
is renumbered rows of the old content; nothing is invented. (Missing: that nothing is lost,
which is false.) -/
theorem C10_failed_renumber_partial (b : Builder) (map : List ℕ) :
    (b.renumber map).1.bounds = b.bounds ∧
    ∀ q l e, SMap.find ⟨q, l⟩ (b.renumber map).1.data = some e →
      ∃ p, (⟨p, l⟩, e) ∈ b.data ∧ map[p]? = some q := by
  refine ⟨rfl, ?_⟩
  have key : ∀ (rows : List (GridKey × BuilderEntry)) (acc : SMap GridKey BuilderEntry),
      (∀ q l e, SMap.find ⟨q, l⟩ acc = some e → ∃ p, (⟨p, l⟩, e) ∈ b.data ∧ map[p]? = some q) →
      (∀ r ∈ rows, r ∈ b.data) →
      ∀ q l e, SMap.find ⟨q, l⟩ (renumberLoop map acc rows).1 = some e →
        ∃ p, (⟨p, l⟩, e) ∈ b.data ∧ map[p]? = some q := by
    intro rows
    induction rows with
    | nil => intro acc h _; exact h
    | cons r t ih =>
      obtain ⟨⟨p, l⟩, v⟩ := r
      intro acc h hr
      unfold renumberLoop
      cases hi : map[p]? with
      | none => simpa only using h
      | some n =>
        simp only
        cases hf : SMap.find (⟨n, l⟩ : GridKey) acc with
        | some x => simpa only using h
        | none =>
          simp only
          refine ih _ ?_ (fun r hr' => hr r (by simp [hr']))
          intro q l' e he
          rw [SMap.find_insert] at he
          by_cases hq : (⟨q, l'⟩ : GridKey) = ⟨n, l⟩
          · rw [if_pos hq] at he
            cases he; cases hq
            exact ⟨p, hr _ (by simp), hi⟩
          · rw [if_neg hq] at he
            exact h q l' e he
  exact key b.data [] (by intro q l e h; simp [SMap.find] at h) (fun _ h => h)

/-! ## C11: termination of finish -/

/-- C11 is false: with one key of phrase id 2^32 - 1 and no boundaries the loop choosing
its bin never ends, so `finish` never returns. -/
theorem C11_finish_can_loop :
    ∃ b : Builder, b.Wf ∧ finish .id b = none ∧
      ∃ k e, b.data = [(k, e)] ∧ ∀ n : ℕ,
        ¬ k.phraseId < ((BinState.step^[n]) (BinState.init b.bounds)).next := by
  refine ⟨Builder.new.append ⟨2 ^ 32 - 1, 1⟩ [⟨1, 3, 5, 6, 7, 8⟩],
    wf_append wf_new (by decide +kernel) (by decide +kernel), by decide +kernel, _, _, rfl, ?_⟩
  exact advance_none_iff.1 (by decide +kernel)

/-- C11, what holds, exactly: `finish` returns if and only if no key has phrase id
2^32 - 1, whatever the boundaries and hash orders. -/
theorem C11_finish_returns_partial (o : IterOrder) (b : Builder) (hb : b.Wf) :
    (∃ db, finish o b = some db) ↔ ∀ r ∈ b.data, r.1.phraseId ≠ 2 ^ 32 - 1 := by
  have hfin : (∃ db, finish o b = some db) ↔
      (assignBins (BinState.init b.bounds) b.data).2 = true := by
    have hbg : (finishPuts o b).2 = (assignBins (BinState.init b.bounds) b.data).2 := by
      rw [finishPuts_snd]; rfl
    constructor
    · rintro ⟨db, h⟩
      rw [← hbg]; exact (finish_eq_some.1 h).1
    · intro h
      exact ⟨_, finish_eq_some.2 ⟨by rw [hbg]; exact h, rfl⟩⟩
  rw [hfin]
  constructor
  · intro h r hr hm
    have := assignBins_stuck (s := BinState.init b.bounds) hb.bounds (by simp [BinState.init])
      ⟨r, hr, by rw [hm]; rfl⟩
    rw [h] at this
    cases this
  · intro h
    refine assignBins_ends ?_
    intro r hr
    have h1 := (hb.keys r hr).1
    have h2 := h r hr
    unfold u32Max
    omega

example : ∃ b : Builder, b.Wf ∧ b.data ≠ [] ∧ ∀ r ∈ b.data, r.1.phraseId ≠ 2 ^ 32 - 1 :=
  ⟨Builder.new.append ⟨2 ^ 32 - 2, 1⟩ [⟨1, 3, 5, 6, 7, 8⟩],
    wf_append wf_new (by decide +kernel) (by decide +kernel), by decide +kernel,
    by decide +kernel⟩

/-! ## C12: crashes -/

/-- C12. Whatever prefix of its writes `finish` got done in an empty directory, for every
key a reader finds nothing or exactly the row the completed build has; this also holds for
builds that never complete. -/
theorem C12_crash_rows (o : IterOrder) (b : Builder) (hb : b.Wf) (done : List (Bytes × Bytes))
    (hdone : done <+: (finishPuts o b).1) (k : GridKey) (hk : k.Wf) :
    SMap.find (k.dbKey .singlePhrase) (applyPuts [] done) = none ∨
    SMap.find (k.dbKey .singlePhrase) (applyPuts [] done) =
      (SMap.find k b.data).map (encodeValue o) := by
  cases hf : SMap.find (k.dbKey .singlePhrase) (applyPuts [] done) with
  | none => exact Or.inl rfl
  | some v =>
    right
    rcases mem_of_find_applyPuts hf with h | h
    · simp [SMap.find] at h
    · obtain ⟨e, he, hv⟩ := put_single hb hk (hdone.subset h) rfl
      rw [(SMap.mem_iff_find hb.sorted).1 he]
      simp only at hv
      rw [hv]; rfl

/-- C12. … the same for whole reads against the completed build. -/
theorem C12_crash_reads (o : IterOrder) (b : Builder) (hb : b.Wf) (db : SMap Bytes Bytes)
    (hfin : finish o b = some db) (done : List (Bytes × Bytes))
    (hdone : done <+: (finishPuts o b).1) (k : GridKey) (hk : k.Wf) :
    (Store.new (applyPuts [] done)).get k = some none ∨
    (Store.new (applyPuts [] done)).get k = (Store.new db).get k := by
  have h1 := C12_crash_rows o b hb done hdone k hk
  rw [← find_finish hb hfin hk] at h1
  unfold Store.get
  have e1 : ∀ d, (Store.new d).db = d := fun _ => rfl
  rw [e1, e1]
  rcases h1 with h1 | h1
  · rw [h1]; exact Or.inl rfl
  · rw [h1]; exact Or.inr rfl

/-- C12. Before the last write no boundaries are visible, so every query of an interrupted
build reads single-phrase rows only: prefix bins are never consulted unless every row, in
particular every bin, had been written. -/
theorem C12_crash_no_bins (o : IterOrder) (b : Builder) (done : List (Bytes × Bytes))
    (hdone : done <+: (finishPuts o b).1)
    (hcrash : (finishPuts o b).2 = false ∨ done ≠ (finishPuts o b).1) :
    (Store.new (applyPuts [] done)).bounds = [] ∧
    ∀ chk phrase plan, (Store.new (applyPuts [] done)).fetchPlan chk phrase = some plan →
      plan.2.2 = .singlePhrase := by
  have hnb : SMap.find boundsKey (applyPuts [] done) = none := by
    rw [find_applyPuts_of_not_mem]
    · rfl
    · intro p hp hpk
      have hkeys : ∀ q ∈ b.binGroups.1.flatMap (groupPuts o), q.1 ≠ boundsKey := by
        intro q hq
        obtain ⟨g, hg, hq⟩ := List.mem_flatMap.1 hq
        rcases mem_groupPuts.1 hq with ⟨r, hr, rfl⟩ | ⟨bin, _, le, _, rfl⟩
        · exact dbKey_ne_bounds _ _
        · exact dbKey_ne_bounds _ _
      by_cases ht : b.binGroups.2 = true
      · have hpu : (finishPuts o b).1 =
            b.binGroups.1.flatMap (groupPuts o) ++ [(boundsKey, boundsValue b.bounds)] := by
          unfold finishPuts; simp only [ht, if_true]
        have hne : done ≠ (finishPuts o b).1 := by
          rcases hcrash with h | h
          · rw [finishPuts_snd, ht] at h; cases h
          · exact h
        have : done <+: b.binGroups.1.flatMap (groupPuts o) := by
          obtain ⟨t, ht⟩ := hdone
          rw [hpu] at ht hne
          rcases List.eq_nil_or_concat t with rfl | ⟨t', x, rfl⟩
          · exact absurd (by simpa using ht) hne
          · rw [List.concat_eq_append, ← List.append_assoc] at ht
            have := (List.append_inj' ht rfl).1
            exact ⟨t', this⟩
        exact hkeys p (this.subset hp) hpk
      · have hpu : (finishPuts o b).1 = b.binGroups.1.flatMap (groupPuts o) := by
          unfold finishPuts; simp only [ht]; simp
        rw [hpu] at hdone
        exact hkeys p (hdone.subset hp) hpk
  have hb0 : (Store.new (applyPuts [] done)).bounds = [] := by
    unfold Store.new Store.openWith
    simp only [hnb]
  refine ⟨hb0, ?_⟩
  intro chk phrase plan hp
  cases phrase with
  | exact id =>
    unfold Store.fetchPlan at hp
    simp only at hp
    split at hp
    · cases hp
    · cases hp; rfl
  | range st en =>
    unfold Store.fetchPlan at hp
    simp only [hb0] at hp
    simp only [List.not_mem_nil, false_and, if_false] at hp
    cases hp; rfl

/-- Non-vacuity: a build with bins, interrupted after its second write. -/
example : ∃ b : Builder, b.Wf ∧ b.bounds = [0] ∧
    ((finishPuts .id b).1.take 2) <+: (finishPuts .id b).1 ∧
    (finishPuts .id b).1.take 2 ≠ (finishPuts .id b).1 ∧ (finishPuts .id b).1.length = 3 := by
  refine ⟨(Builder.new.append ⟨1, 1⟩ [⟨1, 3, 5, 6, 7, 8⟩]).loadBinBoundaries [0], ?_, rfl,
    List.take_prefix _ _, by decide +kernel, by decide +kernel⟩
  have h := wf_append (k := ⟨1, 1⟩) (es := [⟨1, 3, 5, 6, 7, 8⟩]) wf_new (by decide +kernel)
    (by decide +kernel)
  exact ⟨h.sorted, h.keys, h.entries, by simp [loadBinBoundaries]⟩

/-! ## C14: boundaries -/

/-- C14, end to end: a store opened on a finished build uses exactly the boundaries
loaded, in any number and of any values. Opening is total: it cannot fail on them. -/
theorem C14_boundaries_survive (o : IterOrder) (b : Builder) (hb : ∀ x ∈ b.bounds, x < 2 ^ 32)
    (db : SMap Bytes Bytes) (hfin : finish o b = some db) (zoom typeId : ℕ) (radius : F64)
    (bboxes : List BBox) (maxScore : F64) :
    (Store.openWith db zoom typeId radius bboxes maxScore).bounds = b.bounds := by
  unfold Store.openWith
  simp only [find_bounds hfin]
  exact C14_boundaries_roundtrip b.bounds hb

example : ∃ b db, b.bounds = [7, 3, 2 ^ 32 - 1] ∧ finish .id b = some db :=
  ⟨Builder.new.loadBinBoundaries [7, 3, 2 ^ 32 - 1], _, rfl, rfl⟩

/-! ## C02, C03: keys and iter -/

/-- C02. `keys()` lists exactly the keys of the builder, each once. -/
theorem C02_keys_exact (o : IterOrder) (b : Builder) (hb : b.Wf) (db : SMap Bytes Bytes)
    (hfin : finish o b = some db) (s : Store) (hs : s.db = db) :
    ∃ ks, s.keys = some ks ∧ ks.Perm (b.data.map Prod.fst) := by
  have hrow := fun r => phraseRows_finish (r := r) hb hfin hs
  have hdec : ∀ r ∈ s.phraseRows, ∃ k, Store.decodeKey r.1 = some k ∧
      r.1 = k.dbKey .singlePhrase ∧ k.Wf := by
    intro r hr
    obtain ⟨k, e, hm, rfl⟩ := (hrow r).1 hr
    exact ⟨k, decodeKey_dbKey _ (hb.keys _ hm), rfl, hb.keys _ hm⟩
  have hmap : s.keys = some (s.phraseRows.map (fun r => (Store.decodeKey r.1).getD ⟨0, 0⟩)) := by
    unfold Store.keys
    refine mapM_eq_some ?_
    intro r hr
    obtain ⟨k, hk, _⟩ := hdec r hr
    rw [hk]; rfl
  refine ⟨_, hmap, ?_⟩
  rw [List.perm_ext_iff_of_nodup]
  · intro k
    simp only [List.mem_map]
    constructor
    · rintro ⟨r, hr, rfl⟩
      obtain ⟨k, e, hm, rfl⟩ := (hrow r).1 hr
      refine ⟨(k, e), hm, ?_⟩
      rw [decodeKey_dbKey _ (hb.keys _ hm)]; rfl
    · rintro ⟨⟨k', e⟩, hm, rfl⟩
      refine ⟨_, (hrow _).2 ⟨k', e, hm, rfl⟩, ?_⟩
      rw [decodeKey_dbKey _ (hb.keys _ hm)]; rfl
  · unfold List.Nodup
    rw [List.pairwise_map]
    refine (phraseRows_sorted (by rw [hs]; exact finish_sorted hfin)).imp_of_mem ?_
    intro r r' hr hr' hlt heq
    obtain ⟨k, hk, e1, _⟩ := hdec r hr
    obtain ⟨k', hk', e2, _⟩ := hdec r' hr'
    rw [hk, hk'] at heq
    simp only [Option.getD_some] at heq
    rw [e1, e2, heq] at hlt
    exact lt_irrefl _ hlt
  · exact hb.sorted.keys_nodup

/-- C02. `iter()` lists the keys of `keys()` in the same order, each with what `get` returns
for it. -/
theorem C02_iter_exact (o : IterOrder) (b : Builder) (hb : b.Wf) (db : SMap Bytes Bytes)
    (hfin : finish o b = some db) (hsmall : SmallRecords db) (s : Store) (hs : s.db = db) :
    ∃ l, s.iter = some l ∧ s.keys = some (l.map Prod.fst) ∧
      ∀ p ∈ l, s.get p.1 = some (some p.2) := by
  have hrow := fun r => phraseRows_finish (r := r) hb hfin hs
  have hval : ∀ r ∈ s.phraseRows, ∃ k es, k.Wf ∧ r.1 = k.dbKey .singlePhrase ∧
      Store.decodeKey r.1 = some k ∧ decodeValue r.2 = some es ∧ s.get k = some (some es) := by
    intro r hr
    obtain ⟨k, e, hm, rfl⟩ := (hrow r).1 hr
    have hk := hb.keys _ hm
    have hf := find_finish hb hfin hk
    rw [(SMap.mem_iff_find hb.sorted).1 hm] at hf
    have hmem := (SMap.mem_iff_find (finish_sorted hfin)).2 hf
    obtain ⟨rec, hrec, _⟩ := encodeValue_readsAs o e (hb.entries _ hm).2 (hsmall _ hmem)
    refine ⟨k, _, hk, rfl, decodeKey_dbKey _ hk, hrec.decodeValue, ?_⟩
    unfold Store.get
    rw [hs, hf]
    simp only [Option.map_some]
    rw [hrec.decodeValue]; rfl
  refine ⟨s.phraseRows.map (fun r => ((Store.decodeKey r.1).getD ⟨0, 0⟩,
    (decodeValue r.2).getD [])), ?_, ?_, ?_⟩
  · unfold Store.iter
    refine mapM_eq_some ?_
    intro r hr
    obtain ⟨k, es, _, _, h1, h2, _⟩ := hval r hr
    rw [h1, h2]; rfl
  · unfold Store.keys
    rw [List.map_map]
    refine mapM_eq_some ?_
    intro r hr
    obtain ⟨k, es, _, _, h1, h2, _⟩ := hval r hr
    simp only [Function.comp, h1]; rfl
  · intro p hp
    obtain ⟨r, hr, rfl⟩ := List.mem_map.1 hp
    obtain ⟨k, es, _, _, h1, h2, h3⟩ := hval r hr
    simp only [h1, h2, Option.getD_some]
    exact h3

/-- A builder meeting the hypotheses, with keys of all kinds. -/
def keysWitness : Builder :=
  (((Builder.new.append ⟨1, 2⟩ [⟨1, 3, 5, 6, 7, 8⟩]).append ⟨1, 256⟩ [⟨1, 3, 5, 6, 9, 8⟩]).append
    ⟨0, 0⟩ [⟨1, 3, 5, 6, 11, 8⟩]).append ⟨2 ^ 32 - 2, allLangs⟩ [⟨1, 3, 5, 6, 13, 8⟩]

theorem keysWitness_wf : keysWitness.Wf := by
  unfold keysWitness
  refine wf_append (wf_append (wf_append (wf_append wf_new ?_ ?_) ?_ ?_) ?_ ?_) ?_ ?_ <;>
    decide +kernel

example : ∃ db, finish .rev keysWitness = some db ∧ SmallRecords db :=
  ⟨(finish .rev keysWitness).get (by decide +kernel), by simp, by decide +kernel⟩

/-- C03 is false: the language sets 256 and 2 under one phrase come out in that order. -/
theorem C03_keys_not_ascending :
    ∃ b : Builder, b.Wf ∧ ∃ db, finish .id b = some db ∧
      ∃ ks, (Store.new db).keys = some ks ∧ ¬ ks.Pairwise (· < ·) := by
  refine ⟨keysWitness, keysWitness_wf, (finish .id keysWitness).get (by decide +kernel), by simp,
    [⟨0, 0⟩, ⟨1, 256⟩, ⟨1, 2⟩, ⟨2 ^ 32 - 2, allLangs⟩], by decide +kernel, by decide +kernel⟩

/-- C03, what holds: the order is that of the phrase ids and, under one phrase, the dictionary order
of the language sets written to base 256, all languages coming first. (Missing: this is not the
order of the keys for language sets of a different number of digits.) -/
theorem C03_keys_order_partial (o : IterOrder) (b : Builder) (hb : b.Wf) (db : SMap Bytes Bytes)
    (hfin : finish o b = some db) (s : Store) (hs : s.db = db) :
    ∃ ks, s.keys = some ks ∧ ks.Pairwise (fun k k' => k.phraseId < k'.phraseId ∨
      (k.phraseId = k'.phraseId ∧ langWord k.langSet < langWord k'.langSet)) := by
  have hrow := fun r => phraseRows_finish (r := r) hb hfin hs
  have hdec : ∀ r ∈ s.phraseRows, ∃ k, Store.decodeKey r.1 = some k ∧
      r.1 = k.dbKey .singlePhrase ∧ k.Wf := by
    intro r hr
    obtain ⟨k, e, hm, rfl⟩ := (hrow r).1 hr
    exact ⟨k, decodeKey_dbKey _ (hb.keys _ hm), rfl, hb.keys _ hm⟩
  refine ⟨s.phraseRows.map (fun r => (Store.decodeKey r.1).getD ⟨0, 0⟩), ?_, ?_⟩
  · unfold Store.keys
    refine mapM_eq_some ?_
    intro r hr
    obtain ⟨k, hk, _⟩ := hdec r hr
    rw [hk]; rfl
  · rw [List.pairwise_map]
    refine (phraseRows_sorted (by rw [hs]; exact finish_sorted hfin)).imp_of_mem ?_
    intro r r' hr hr' hlt
    obtain ⟨k, hk, e1, w1⟩ := hdec r hr
    obtain ⟨k', hk', e2, w2⟩ := hdec r' hr'
    rw [hk, hk']
    simp only [Option.getD_some]
    rw [e1, e2] at hlt
    rcases Nat.lt_or_eq_of_le (phrase_le_of_dbKey_lt w1 w2 hlt) with h | h
    · exact Or.inl h
    · refine Or.inr ⟨h, ?_⟩
      unfold GridKey.dbKey at hlt
      rw [cons_lt_cons_iff', h] at hlt
      rcases hlt with hlt | ⟨_, hlt⟩
      · exact absurd hlt (lt_irrefl _)
      · rw [append_lt_append_iff, langBytes_eq_word w1.2, langBytes_eq_word w2.2] at hlt
        exact hlt

/-- C03, what holds: under one phrase, language sets of the same number of digits ascend. -/
theorem C03_same_length_partial (o : IterOrder) (b : Builder) (hb : b.Wf) (db : SMap Bytes Bytes)
    (hfin : finish o b = some db) (s : Store) (hs : s.db = db) :
    ∃ ks, s.keys = some ks ∧ ks.Pairwise (fun k k' =>
      (k.phraseId = k'.phraseId → (langWord k.langSet).length = (langWord k'.langSet).length) →
        k < k') := by
  obtain ⟨ks, h1, h2⟩ := C03_keys_order_partial o b hb db hfin s hs
  refine ⟨ks, h1, h2.imp_of_mem ?_⟩
  intro k k' hk hk' h hl
  have hwf : ∀ k ∈ ks, k.Wf := by
    intro k hk
    obtain ⟨ks', h3, h4⟩ := C02_keys_exact o b hb db hfin s hs
    rw [h1] at h3
    cases h3
    obtain ⟨e, he, rfl⟩ := List.mem_map.1 (h4.mem_iff.1 hk)
    exact hb.keys e he
  show k.toPair < k'.toPair
  unfold GridKey.toPair
  rw [Prod.Lex.toLex_lt_toLex]
  rcases h with h | ⟨h, h'⟩
  · exact Or.inl h
  · exact Or.inr ⟨h, (langWord_lt_iff (hwf k hk).2 (hwf k' hk').2 (hl h)).1 h'⟩

end Carmen
