import Verif.Lemmas.Tools
import Verif.Lemmas.WrittenBytes
import Verif.Props.Copy
import Verif.Props.Directory

/-!
# C73: dumping a store to text and loading the text
-/

namespace Carmen
open Format Spec Builder Tools

/-- Entries read from a record are of the right types, and storing them again changes nothing. -/
theorem shapeEntries_exact {o : IterOrder} {e : BuilderEntry} (hw : EntryWf e) (hb : EntryBounds e)
    {v : GridEntry} (hv : v ∈ shapeEntries (normEntry o e)) : v.Wf ∧ Exact v := by
  rw [shapeEntries_eq, List.mem_map] at hv
  obtain ⟨⟨rs, z, i⟩, ht, rfl⟩ := hv
  rw [mem_triples_normEntry hw] at ht
  obtain ⟨inner, h1, ids, h2, h3⟩ := ht
  obtain ⟨-, hg⟩ := hb _ (HMap.mem_of_find h1)
  obtain ⟨-, hi⟩ := hg _ (HMap.mem_of_find h2)
  have hi : i < 2 ^ 32 := hi i h3
  have hd := deinterleave_lt z
  have hs : rs &&& 15 ≤ 15 := Nat.and_le_right
  have hh : i &&& 255 ≤ 255 := Nat.and_le_right
  have hid : i >>> 8 < 2 ^ 24 := by
    rw [Nat.shiftRight_eq_div_pow]
    omega
  refine ⟨⟨?_, hd.1, hd.2, ?_, ?_⟩, hs, hid, ?_⟩
  · change rs &&& 15 < 2 ^ 8
    omega
  · change i >>> 8 < 2 ^ 32
    omega
  · change i &&& 255 < 2 ^ 8
    omega
  · change relevOfInt (rs >>> 4) = _ ∨ relevOfInt (rs >>> 4) = _ ∨ relevOfInt (rs >>> 4) = _ ∨
      relevOfInt (rs >>> 4) = _
    unfold relevOfInt
    split_ifs <;> simp

theorem listing_exact {db : SMap Bytes Bytes} (hd : Directory db) (hsmall : SmallRecords db)
    {s : Store} (hs : s.db = db) {l : List (GridKey × List GridEntry)} (hl : s.iter = some l) :
    ∀ p ∈ l, p.1.Wf ∧ ∀ v ∈ p.2, v.Wf ∧ Exact v := by
  rw [(laid_iter (hd.laidOut hsmall) hs).1] at hl
  cases hl
  intro p hp
  obtain ⟨r, hr, rfl⟩ := List.mem_map.1 hp
  obtain ⟨hr1, k, es, hk, hkr, -, hdv, hrr, -⟩ := phraseRow_read (hd.laidOut hsmall) hs hr
  rw [hrr]
  refine ⟨hk, ?_⟩
  rcases directory_row hd hr1 with ⟨o, m, k', e, -, hw, hb, he⟩ | hbk
  · obtain ⟨rec, hrec, hshape⟩ := encodeValue_readsAs o e hb
      (by have := hsmall _ hr1; rw [he] at this; exact this)
    have h2 := hrec.decodeValue
    rw [hshape, ← show r.2 = encodeValue o e from congrArg Prod.snd he, hdv] at h2
    cases h2
    exact fun v hv => shapeEntries_exact hw hb hv
  · exact absurd (hkr.symm.trans hbk) (dbKey_ne_bounds _ _)

theorem listing_sorted {db : SMap Bytes Bytes} (hd : Directory db) (hsmall : SmallRecords db)
    {s : Store} (hs : s.db = db) {l : List (GridKey × List GridEntry)} (hl : s.iter = some l) :
    (l.map Prod.fst).Pairwise fun k k' => k.dbKey .singlePhrase < k'.dbKey .singlePhrase := by
  rw [(laid_iter (hd.laidOut hsmall) hs).1] at hl
  cases hl
  rw [List.map_map, List.pairwise_map]
  have hsort := hd.sorted.sublist (phraseRows_sublist (hd.laidOut hsmall) hs)
  refine List.Pairwise.imp_of_mem ?_ hsort
  intro a b ha hb hab
  obtain ⟨-, k, es, -, h1, -, -, h2, -⟩ := phraseRow_read (hd.laidOut hsmall) hs ha
  obtain ⟨-, k', es', -, h3, -, -, h4, -⟩ := phraseRow_read (hd.laidOut hsmall) hs hb
  simp only [Function.comp_apply, h2, h4]
  rw [← h1, ← h3]
  exact hab

/-- **C72**: whatever builders have left in a directory can be copied record by record. `finish` of the
copy returns unless there is a phrase 4294967295; and then the copy lists the same keys, in the same
order, and has the same entries for each of them. -/
theorem C72_copy (o : IterOrder) (db : SMap Bytes Bytes) (hd : Directory db)
    (hsmall : SmallRecords db) (s : Store) (hs : s.db = db)
    (l : List (GridKey × List GridEntry)) (hl : s.iter = some l)
    (l' : List (GridKey × List GridEntry)) (hperm : l'.Perm l) (calls : List Call)
    (hw : List.Forall₂ Writes calls l') (bounds : List ℕ) (hbs : ∀ x ∈ bounds, x < 2 ^ 32) :
    ∃ b, Builder.run (calls ++ [.loadBounds bounds]) = some b ∧ b.bounds = bounds ∧
      ((∃ db', finish o b = some db') ↔ ∀ p ∈ l, p.1.phraseId ≠ 2 ^ 32 - 1) ∧
      ∀ db', finish o b = some db' → SmallRecords db' → ∀ s' : Store, s'.db = db' →
        ∃ m, s'.iter = some m ∧
          List.Forall₂ (fun p q => q.1 = p.1 ∧ ∀ e, e ∈ q.2 ↔ e ∈ p.2) l m := by
  have hex := listing_exact hd hsmall hs hl
  have hex' : ∀ p ∈ l', p.1.Wf ∧ ∀ v ∈ p.2, v.Wf ∧ Exact v := fun p hp => hex p (hperm.mem_iff.1 hp)
  have hcw : ∀ c ∈ calls ++ [Call.loadBounds bounds], c.Wf := by
    intro c hcm
    rcases List.mem_append.1 hcm with hcm | hcm
    · obtain ⟨p, hp, hw⟩ := writes_mem hw hcm
      have := hex' p hp
      rcases hw with rfl | rfl <;> exact ⟨this.1, fun v hv => (this.2 v hv).1⟩
    · rw [List.mem_singleton.1 hcm]
      exact hbs
  obtain ⟨b, hb⟩ := run_writes hw bounds Builder.new
  have hr := refines_run hcw hb
  have hcont : Content.run (calls ++ [.loadBounds bounds]) = Content.run calls := by
    unfold Content.run
    rw [List.foldl_append]
    rfl
  have hsort := listing_sorted hd hsmall hs hl
  have hnd : (l.map Prod.fst).Nodup :=
    hsort.imp fun {a b} h e => absurd h (by rw [e]; exact lt_irrefl _)
  have hnd' : (l'.map Prod.fst).Nodup := (hperm.map Prod.fst).nodup_iff.2 hnd
  obtain ⟨hc1, hc2⟩ := content_writes hw (fun _ => none) hnd' (fun _ _ => rfl)
  have hfind : ∀ k, SMap.find k b.data ≠ none ↔ k ∈ l.map Prod.fst := by
    intro k
    rw [ne_eq, hr.absent, hcont, ← (hperm.map Prod.fst).mem_iff]
    by_cases hkm : k ∈ l'.map Prod.fst
    · obtain ⟨p, hp, rfl⟩ := List.mem_map.1 hkm
      have hp2 : Content.run calls p.1 = some p.2 := hc1 p hp
      simp [hp2, hkm]
    · have hnone : Content.run calls k = none := hc2 k hkm
      simp only [hnone, hkm, not_true_eq_false]
  have hkeys : ∀ k, k ∈ b.data.map Prod.fst ↔ k ∈ l.map Prod.fst := by
    intro k
    rw [← hfind]
    constructor
    · intro h
      obtain ⟨r, hr1, rfl⟩ := List.mem_map.1 h
      rw [(SMap.mem_iff_find hr.wf.sorted (k := r.1) (v := r.2)).1 hr1]
      simp
    · intro h
      obtain ⟨v, hv⟩ := Option.ne_none_iff_exists'.1 h
      exact List.mem_map.2 ⟨_, (SMap.mem_iff_find hr.wf.sorted).2 hv, rfl⟩
  refine ⟨b, hb, ?_, ?_, fun db' hdb' hsmall' s' hs' => ?_⟩
  · rw [bounds_runFrom hb]
    exact foldl_bounds_last calls bounds _
  · rw [C11_finish_returns_partial o b hr.wf]
    constructor
    · intro h p hp
      obtain ⟨r, hr1, he⟩ := List.mem_map.1 ((hkeys p.1).2 (List.mem_map_of_mem hp))
      rw [← he]
      exact h r hr1
    · intro h r hr1
      obtain ⟨p, hp, he⟩ := List.mem_map.1 ((hkeys r.1).1 (List.mem_map_of_mem hr1))
      rw [← he]
      exact h p hp
  · have hd' := Directory.finish hr.wf hdb'
    obtain ⟨m, hm⟩ : ∃ m, s'.iter = some m := ⟨_, (laid_iter (hd'.laidOut hsmall') hs').1⟩
    refine ⟨m, hm, ?_⟩
    have hsort' := listing_sorted hd' hsmall' hs' hm
    obtain ⟨m', hm', -, -, hget, hk'⟩ := iter_keys hr.wf hdb' hsmall' hs'
    rw [hm] at hm'
    cases hm'
    have hpk : (m.map Prod.fst).Perm (l.map Prod.fst) :=
      (List.perm_ext_iff_of_nodup
        (hsort'.imp fun {a b} h e => absurd h (by rw [e]; exact lt_irrefl _)) hnd).2
        fun k => by rw [hk', hfind]
    have heq : m.map Prod.fst = l.map Prod.fst :=
      hpk.eq_of_pairwise (fun a b _ _ h1 h2 => absurd (lt_trans h1 h2) (lt_irrefl _)) hsort' hsort
    have hlen : l.length = m.length := by
      have := congrArg List.length heq
      simpa using this.symm
    refine List.forall₂_iff_get.2 ⟨hlen, fun i h1 h2 => ?_⟩
    have hki : (m.get ⟨i, h2⟩).1 = (l.get ⟨i, h1⟩).1 := by
      have := congrArg (fun x => x[i]?) heq
      simp only [List.getElem?_map] at this
      rw [List.getElem?_eq_getElem h1, List.getElem?_eq_getElem h2] at this
      exact Option.some.inj this
    refine ⟨hki, ?_⟩
    have hmem : l.get ⟨i, h1⟩ ∈ l := List.get_mem _ _
    have hmem' : m.get ⟨i, h2⟩ ∈ m := List.get_mem _ _
    have hp2 : Content.run (calls ++ [.loadBounds bounds]) (l.get ⟨i, h1⟩).1 =
        some (l.get ⟨i, h1⟩).2 := by
      rw [hcont]
      exact hc1 _ (hperm.mem_iff.2 hmem)
    obtain ⟨rs, hrs, hv⟩ := C05_score_overflow_partial o _ hcw b hb db' hdb' hsmall' s' hs'
      _ (hex _ hmem).1 _ hp2
    have hg := hget _ hmem'
    rw [hki, hrs] at hg
    cases hg
    have hst : ∀ v ∈ (l.get ⟨i, h1⟩).2, storedAny v = v := fun v hv => by
      have h := ((hex _ hmem).2 v hv).2
      rw [C05_documented_scores h.1, stored_of_exact h]
    intro e
    rw [hv]
    constructor
    · rintro ⟨u, hu, rfl⟩
      rw [hst u hu]
      exact hu
    · intro he
      exact ⟨e, he, (hst e he).symm⟩

/-! ## The tools -/

theorem foldl_insert_run (l : List (GridKey × List GridEntry)) (bounds : List ℕ) (b : Builder) :
    b.runFrom (l.map (fun p => Call.insert p.1 p.2) ++ [.loadBounds bounds]) =
      some ((l.foldl (fun b p => b.insert p.1 p.2) b).loadBinBoundaries bounds) := by
  induction l generalizing b with
  | nil => rfl
  | cons p l ih => exact ih _

theorem decodeBounds_bytes : ∀ v : Bytes, IsBytes v → ∀ n ∈ Store.decodeBounds v, n < 2 ^ 32
  | a :: b :: c :: d :: t, h, n, hn => by
    simp only [Store.decodeBounds, List.mem_cons] at hn
    rcases hn with rfl | hn
    · have h1 : a < 256 := h a (by simp)
      have h2 : b < 256 := h b (by simp)
      have h3 : c < 256 := h c (by simp)
      have h4 : d < 256 := h d (by simp)
      simp only [ofLe]
      omega
    · exact decodeBounds_bytes t (fun x hx => h x (by simp [hx])) n hn
  | [], _, n, hn => by simp [Store.decodeBounds] at hn
  | [_], _, n, hn => by simp [Store.decodeBounds] at hn
  | [_, _], _, n, hn => by simp [Store.decodeBounds] at hn
  | [_, _, _], _, n, hn => by simp [Store.decodeBounds] at hn

theorem directory_bounds {db : SMap Bytes Bytes} (hd : Directory db) :
    ∀ x ∈ (Store.new db).bounds, x < 2 ^ 32 := by
  intro x hx
  unfold Store.new Store.openWith at hx
  simp only at hx
  cases hf : SMap.find boundsKey db with
  | none => rw [hf] at hx; cases hx
  | some v =>
    rw [hf] at hx
    exact decodeBounds_bytes v (hd.bytes _ ((SMap.mem_iff_find hd.sorted).2 hf)) x hx

/-- The boundaries that are dumped: ascending, each once. -/
def dumpedBounds (s : Store) : List ℕ := s.bounds.dedup.insertionSort (· ≤ ·)

theorem dumpedBounds_mem (s : Store) (x : ℕ) : x ∈ dumpedBounds s ↔ x ∈ s.bounds := by
  unfold dumpedBounds
  rw [List.mem_insertionSort, List.mem_dedup]

theorem dumpedBounds_ascending (s : Store) : (dumpedBounds s).Pairwise (· < ·) := by
  unfold dumpedBounds
  have h1 := List.pairwise_insertionSort (· ≤ ·) s.bounds.dedup
  have h2 : (s.bounds.dedup.insertionSort (· ≤ ·)).Nodup :=
    (List.perm_insertionSort (· ≤ ·) _).nodup_iff.2 (List.nodup_dedup _)
  exact (h1.and h2).imp fun h => lt_of_le_of_ne h.1 h.2

theorem dump_eq {J : JsonCrate} {takes : ℕ → ℕ → ℕ} (ht : ∀ i n, n ≤ takes i n)
    {db : SMap Bytes Bytes} {l : List (GridKey × List GridEntry)}
    (hl : (Store.new db).iter = some l) :
    dump J takes db = some ((l.flatMap fun p => [recordText J.float p, ['\n']]).flatten,
      numsText (dumpedBounds (Store.new db))) := by
  unfold dump
  simp only [hl, Option.bind_eq_bind, Option.bind_some, written_whole ht, List.flatten_cons,
    List.flatten_nil, List.append_nil]
  rfl

theorem load_dumped {J : JsonCrate} {o : IterOrder} {old : SMap Bytes Bytes}
    {l : List (GridKey × List GridEntry)} (hl : ∀ p ∈ l, Printable p) {bounds : List ℕ}
    (hb : ∀ x ∈ bounds, x < 2 ^ 32) {b : Builder}
    (hrun : Builder.run (l.map (fun p => Call.insert p.1 p.2) ++ [.loadBounds bounds]) = some b) :
    load J o old (l.flatMap fun p => [recordText J.float p, ['\n']]).flatten (numsText bounds) =
      finishInto o old b := by
  have hne : ((l.map (recordText J.float)).filter fun t => !t.isEmpty) =
      l.map (recordText J.float) := by
    refine List.filter_eq_self.2 fun t ht => ?_
    obtain ⟨p, -, rfl⟩ := List.mem_map.1 ht
    have := recordText_last J.float p
    cases h : recordText J.float p with
    | nil => rw [h] at this; cases this
    | cons c r => rfl
  have hrec : (l.map (recordText J.float)).mapM J.record = some l := by
    rw [List.mapM_map]
    have := mapM_eq_some (l := l) (f := fun p => J.record (recordText J.float p)) (g := id)
      fun p hp => J.record_read p (hl p hp)
    rw [List.map_id] at this
    exact this
  have hb' := foldl_insert_run l bounds Builder.new
  have hrun' : Builder.new.runFrom (l.map (fun p => Call.insert p.1 p.2) ++ [.loadBounds bounds]) =
    some b := hrun
  rw [hb'] at hrun'
  unfold load
  rw [linesFrom_records, hne]
  simp only [Option.bind_eq_bind, hrec, Option.bind_some, J.nums_read bounds hb]
  rw [Option.some.inj hrun']

theorem forall₂_inserts (l : List (GridKey × List GridEntry)) :
    List.Forall₂ Writes (l.map fun p => Call.insert p.1 p.2) l := by
  induction l with
  | nil => exact .nil
  | cons p l ih => exact .cons (Or.inl rfl) ih

theorem listing_printable {db : SMap Bytes Bytes} (hd : Directory db) (hsmall : SmallRecords db)
    {s : Store} (hs : s.db = db) {l : List (GridKey × List GridEntry)} (hl : s.iter = some l) :
    ∀ p ∈ l, Printable p := fun p hp =>
  have h := listing_exact hd hsmall hs hl p hp
  ⟨h.1, fun e he => ⟨(h.2 e he).1, (h.2 e he).2.2.2⟩⟩

/-- **C73**: dumping a store to text and loading the text into an empty directory gives the same
database, byte for byte. -/
theorem C73_roundtrip (J : JsonCrate) (takes : ℕ → ℕ → ℕ) (htakes : ∀ i n, n ≤ takes i n)
    (o o' : IterOrder) (cs : List Call) (hc : ∀ c ∈ cs, c.Wf)
    (hn : ∀ c ∈ cs, c.NonEmpty) (hscore : ∀ c ∈ cs, ∀ e ∈ c.entries, e.score ≤ 15)
    (b : Builder) (hrun : Builder.run cs = some b) (hasc : b.bounds.Pairwise (· < ·))
    (db : SMap Bytes Bytes) (hfin : finish o b = some db) (hsmall : SmallRecords db) :
    ∃ data splits, dump J takes db = some (data, splits) ∧ load J o' [] data splits = some db := by
  have hd := Directory.finish (refines_run hc hrun).wf hfin
  obtain ⟨l, hl, hcopy⟩ := C71_copy o o' cs hc hn hscore b hrun hasc db hfin hsmall 6 0 0
    [⟨0, 0, 63, 63⟩] 0 (Store.new db) rfl
  obtain ⟨b', hb', hf⟩ := hcopy l _ (dumpedBounds (Store.new db)) (List.Perm.refl l)
    (forall₂_inserts l) (dumpedBounds_ascending _) (dumpedBounds_mem _)
  refine ⟨_, _, dump_eq htakes hl, ?_⟩
  rw [load_dumped (listing_printable hd hsmall rfl hl)
    (fun x hx => directory_bounds hd x ((dumpedBounds_mem _ x).1 hx)) hb']
  exact hf

/-- **C73**, for whatever builders have left in a directory: the store can be dumped. Loading the text
returns unless there is a phrase 4294967295; and then the loaded store lists the same keys, in the same
order, with the same entries, and has the same boundaries, in ascending order. -/
theorem C73_reads (J : JsonCrate) (takes : ℕ → ℕ → ℕ) (htakes : ∀ i n, n ≤ takes i n)
    (o : IterOrder) (db : SMap Bytes Bytes) (hd : Directory db) (hsmall : SmallRecords db) :
    ∃ l data splits, (Store.new db).iter = some l ∧ dump J takes db = some (data, splits) ∧
      ((∃ db', load J o [] data splits = some db') ↔ ∀ p ∈ l, p.1.phraseId ≠ 2 ^ 32 - 1) ∧
      ∀ db', load J o [] data splits = some db' → SmallRecords db' →
        (∃ m, (Store.new db').iter = some m ∧
          List.Forall₂ (fun p q => q.1 = p.1 ∧ ∀ e, e ∈ q.2 ↔ e ∈ p.2) l m) ∧
        (Store.new db').bounds.Pairwise (· < ·) ∧
        ∀ x, x ∈ (Store.new db').bounds ↔ x ∈ (Store.new db).bounds := by
  have hl := (laid_iter (s := Store.new db) (hd.laidOut hsmall) rfl).1
  set l := (Store.new db).phraseRows.map rowRead with hldef
  have hbs : ∀ x ∈ dumpedBounds (Store.new db), x < 2 ^ 32 :=
    fun x hx => directory_bounds hd x ((dumpedBounds_mem _ x).1 hx)
  obtain ⟨b, hb, hbb, hret, hcopy⟩ := C72_copy o db hd hsmall (Store.new db) rfl l hl l (List.Perm.refl l) _
    (forall₂_inserts l) (dumpedBounds (Store.new db)) hbs
  refine ⟨l, _, _, hl, dump_eq htakes hl, ?_, ?_⟩
  · rw [load_dumped (listing_printable hd hsmall rfl hl) hbs hb]
    exact hret
  · intro db' hdb' hsmall'
    rw [load_dumped (listing_printable hd hsmall rfl hl) hbs hb] at hdb'
    refine ⟨hcopy db' hdb' hsmall' _ rfl, ?_⟩
    have hbw : ∀ x ∈ b.bounds, x < 2 ^ 32 := by rw [hbb]; exact hbs
    have : (Store.new db').bounds = dumpedBounds (Store.new db) := by
      rw [← hbb]
      exact C14_boundaries_survive o b hbw db' hdb' 6 0 0 [⟨0, 0, 63, 63⟩] 0
    rw [this]
    exact ⟨dumpedBounds_ascending _, dumpedBounds_mem _⟩

/-- What is written is never longer than what should be; it is all of it exactly if no long piece is
cut. -/
theorem written_aux (takes : ℕ → ℕ → ℕ) (pieces : List Text) : ∀ n,
    ((pieces.zipIdx n).map fun p => if p.1.length < bufCapacity then p.1
        else p.1.take (takes p.2 p.1.length)).flatten.length ≤ pieces.flatten.length ∧
    (((pieces.zipIdx n).map fun p => if p.1.length < bufCapacity then p.1
        else p.1.take (takes p.2 p.1.length)).flatten = pieces.flatten ↔
      ∀ i p, pieces[i]? = some p → bufCapacity ≤ p.length → p.length ≤ takes (n + i) p.length) := by
  induction pieces with
  | nil => intro n; simp
  | cons q pieces ih =>
    intro n
    obtain ⟨h1, h2⟩ := ih (n + 1)
    rw [List.zipIdx_cons, List.map_cons, List.flatten_cons, List.flatten_cons]
    have hq : (if q.length < bufCapacity then q else q.take (takes n q.length)).length ≤ q.length := by
      split_ifs
      · exact le_refl _
      · rw [List.length_take]; exact Nat.min_le_right _ _
    refine ⟨by rw [List.length_append, List.length_append]; exact Nat.add_le_add hq h1, ?_⟩
    have hshift : ∀ i, n + 1 + i = n + (i + 1) := fun i => by omega
    constructor
    · intro h i p hp hlong
      have hlen := congrArg List.length h
      simp only [List.length_append] at hlen
      have hql : (if q.length < bufCapacity then q else q.take (takes n q.length)).length = q.length := by
        omega
      have hrest := (List.append_inj h hql).2
      cases i with
      | zero =>
        simp only [List.getElem?_cons_zero, Option.some.injEq] at hp
        subst hp
        have hnlt : ¬ q.length < bufCapacity := by omega
        rw [if_neg hnlt, List.length_take] at hql
        rw [Nat.add_zero]
        omega
      | succ i =>
        rw [← hshift]
        exact h2.1 hrest i p (by simpa using hp) hlong
    · intro h
      rw [h2.2 fun i p hp hlong => by rw [hshift]; exact h (i + 1) p (by simpa using hp) hlong]
      split_ifs with hs
      · rfl
      · have := h 0 q rfl (Nat.not_lt.1 hs)
        rw [List.take_of_length_le (by simpa using this)]

/-- **C73** (a finding): the tool never notices that the file took less of a piece than it was given.
The file with the records is what it should be if and only if no record of 8192 characters or more is
cut; a text that was cut short is accepted all the same. -/
theorem C73_short_write (J : JsonCrate) (takes full : ℕ → ℕ → ℕ) (hfull : ∀ i n, n ≤ full i n)
    (db : SMap Bytes Bytes) (l : List (GridKey × List GridEntry))
    (hl : (Store.new db).iter = some l) :
    ∃ data splits data' splits', dump J takes db = some (data, splits) ∧
      dump J full db = some (data', splits') ∧
      (data = data' ↔ ∀ i p, (l.flatMap fun p => [recordText J.float p, ['\n']])[i]? = some p →
        8192 ≤ p.length → p.length ≤ takes i p.length) := by
  refine ⟨written takes (l.flatMap fun p => [recordText J.float p, ['\n']]),
    written takes [numsText (dumpedBounds (Store.new db))], _, _, ?_, dump_eq hfull hl, ?_⟩
  · unfold dump
    simp only [hl]
    rfl
  · have := (written_aux takes (l.flatMap fun p => [recordText J.float p, ['\n']]) 0).2
    simp only [Nat.zero_add] at this
    exact this

theorem removeAll_length (pat : Text) : ∀ (n : ℕ) (t : Text),
    ∃ k, (removeAll pat n t).length + pat.length * k = t.length
  | 0, t => ⟨0, by simp [removeAll]⟩
  | n + 1, [] => ⟨0, by simp [removeAll]⟩
  | n + 1, c :: t => by
    unfold removeAll
    split_ifs with h
    · obtain ⟨k, hk⟩ := removeAll_length pat n ((c :: t).drop pat.length)
      refine ⟨k + 1, ?_⟩
      have := (List.isPrefixOf_iff_prefix.1 h).length_le
      rw [List.length_drop] at hk
      rw [Nat.mul_succ]
      omega
    · obtain ⟨k, hk⟩ := removeAll_length pat n t
      refine ⟨k, ?_⟩
      simp only [List.length_cons]
      omega

/-- **C73**: the file with the boundaries is never the file with the records. -/
theorem C73_paths (path : Text) : splitsPath path ≠ path := by
  intro h
  obtain ⟨k, hk⟩ := removeAll_length ".gridstore.dat".toList path.length path
  have hlen := congrArg List.length h
  unfold splitsPath at hlen
  rw [List.length_append] at hlen
  have h1 : ".gridstore.dat".toList.length = 14 := by decide +kernel
  have h2 : ".gridstore.splits".toList.length = 17 := by decide +kernel
  rw [h1] at hk
  rw [h2] at hlen
  omega

/-! ## Cases -/

/-- A store built from calls that meet the hypotheses, dumped and loaded. -/
example : ∃ b db t, Builder.run exampleCalls = some b ∧ finish .id b = some db ∧
    SmallRecords db ∧ b.bounds.Pairwise (· < ·) ∧ dump plainJson (fun _ n => n) db = some t ∧
    ((t.1.filter (· = '\n')).length = 3 ∧ load plainJson .id [] t.1 t.2 = some db) := by
  have h : ((Builder.run exampleCalls).bind fun b => (finish .id b).bind fun db =>
      (dump plainJson (fun _ n => n) db).map fun t => (b, db, t)).any (fun r =>
      decide (SmallRecords r.2.1) && decide (r.1.bounds.Pairwise (· < ·)) &&
      decide ((r.2.2.1.filter (· = '\n')).length = 3) &&
      decide (load plainJson .id [] r.2.2.1 r.2.2.2 = some r.2.1)) = true := by
    decide +kernel
  rw [Option.any_eq_true] at h
  obtain ⟨r, hr, h⟩ := h
  obtain ⟨b, hb, hr⟩ := Option.bind_eq_some_iff.1 hr
  obtain ⟨db, hdb, hr⟩ := Option.bind_eq_some_iff.1 hr
  obtain ⟨t, ht, rfl⟩ := Option.map_eq_some_iff.1 hr
  simp only [Bool.and_eq_true, decide_eq_true_eq] at h
  exact ⟨b, db, t, hb, hdb, h.1.1.1, h.1.1.2, ht, h.1.2, h.2⟩

/-- The text of a directory an interrupted build left. -/
example : Directory halfDone ∧ SmallRecords halfDone ∧
    dump plainJson (fun _ n => n) halfDone = some
      (("{\"grid_key\":{\"phrase_id\":1,\"lang_set\":1},\"entries\":[{\"relev\":0.6,\"score\":1," ++
        "\"x\":8,\"y\":8,\"id\":3,\"source_phrase_hash\":0}]}\n" ++
        "{\"grid_key\":{\"phrase_id\":2,\"lang_set\":1},\"entries\":[{\"relev\":0.8,\"score\":2," ++
        "\"x\":4,\"y\":4,\"id\":9,\"source_phrase_hash\":1}]}\n").toList, "[]".toList) ∧
    (dump plainJson (fun _ n => n) halfDone).bind (fun t => load plainJson .id [] t.1 t.2) =
      some halfDone := by
  exact ⟨halfDone_directory, by decide +kernel, by decide +kernel, by decide +kernel⟩

/-- A record of more than 8192 characters. -/
def longBuild : Builder :=
  Builder.new.append ⟨1, 1⟩ ((List.range 140).map fun i => ⟨1, 3, 5, 6, i, 0⟩)

/-- If the file takes half of it, half of it is missing from the dump, which cannot be loaded. -/
example : ((finish .id longBuild).bind fun db =>
    (dump plainJson (fun _ n => n / 2) db).map fun t => (t.1.length, load plainJson .id [] t.1 t.2)) =
      some (4732, none) := by
  decide +kernel

example : splitsPath "a/b.gridstore.dat".toList = "a/b.gridstore.splits".toList ∧
    splitsPath "a/b.json".toList = "a/b.json.gridstore.splits".toList := by
  decide +kernel

end Carmen
