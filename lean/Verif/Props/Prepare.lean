import Verif.Spec.Prepare
import Verif.Lemmas.HMap
import Verif.Props.Tools

/-!
# C99: requests read from files
-/

namespace Carmen
open Format Spec Builder Tools

section
variable {w : Opening} {J : JsonCrate} {o : IterOrder} {files : Text → Text}

theorem Spec.Loads.refl (m : HMap Text (SMap Bytes Bytes)) : Loads J o files m m :=
  ⟨fun _ _ h => h, fun _ _ h => Or.inl h⟩

theorem Spec.Loads.trans {a b c : HMap Text (SMap Bytes Bytes)} (h : Loads J o files a b)
    (h' : Loads J o files b c) : Loads J o files a c := by
  refine ⟨fun n db hn => h'.kept n db (h.kept n db hn), fun n db hn => ?_⟩
  rcases h'.new n db hn with hn | hn
  · exact h.new n db hn
  · exact Or.inr hn

theorem HMap.find_insert' {K V : Type} [DecidableEq K] (k k' : K) (v : V) (m : HMap K V) :
    HMap.find k' (HMap.insert k v m) = if k' = k then some v else HMap.find k' m := by
  unfold HMap.insert
  rw [HMap.find_upsert]

theorem ensureStore_loads {indexes indexes' : HMap Text (SMap Bytes Bytes)} {datafile : Text}
    {db : SMap Bytes Bytes} (h : ensureStore J o files indexes datafile = some (db, indexes')) :
    Loads J o files indexes indexes' ∧ HMap.find (indexName datafile) indexes' = some db := by
  unfold ensureStore at h
  cases hf : HMap.find (indexName datafile) indexes with
  | some d =>
    rw [hf] at h
    cases h
    exact ⟨.refl _, hf⟩
  | none =>
    rw [hf] at h
    obtain ⟨d, hd, h⟩ := Option.map_eq_some_iff.1 h
    cases h
    refine ⟨⟨fun n x hn => ?_, fun n x hn => ?_⟩, by rw [HMap.find_insert', if_pos rfl]⟩
    · rw [HMap.find_insert', if_neg]
      · exact hn
      · rintro rfl
        rw [hf] at hn
        cases hn
    · rw [HMap.find_insert'] at hn
      split_ifs at hn with hk
      · cases hn
        exact Or.inr ⟨datafile, hk, hd⟩
      · exact Or.inl hn

/-- The stores are the ones of the placeholders seen. -/
def StoresOf (w : Opening) (seen : List Holder) (st : Prepared) : Prop :=
  ∀ p s, HMap.find p st.stores = some s ↔ ∃ h0 db, firstAt seen p = some h0 ∧
    HMap.find (indexName (w.file h0.store)) st.indexes = some db ∧ s = w.store h0.store db

theorem firstAt_append {seen more : List Holder} {p : Text} {h : Holder}
    (hf : firstAt seen p = some h) : firstAt (seen ++ more) p = some h := by
  unfold firstAt at hf ⊢
  rw [List.find?_append, hf]
  rfl

theorem firstAt_snoc {seen : List Holder} {h : Holder} {p : Text} :
    firstAt (seen ++ [h]) p = match firstAt seen p with
      | some x => some x
      | none => if h.store.path = p then some h else none := by
  unfold firstAt
  rw [List.find?_append]
  cases seen.find? (fun h => decide (h.store.path = p)) with
  | some x => rfl
  | none =>
    by_cases hp : h.store.path = p
    · simp [hp]
    · simp [hp]

/-- Every path seen has a store. -/
def AllOpen (seen : List Holder) (st : Prepared) : Prop :=
  ∀ p h0, firstAt seen p = some h0 → (HMap.find p st.stores).isSome

theorem prepareHolder_spec {seen : List Holder} {st st' : Prepared} {h : Holder} {q : Subquery}
    (hi : StoresOf w seen st) (ha : AllOpen seen st)
    (hp : prepareHolder w J o files st h = some (q, st')) :
    StoresOf w (seen ++ [h]) st' ∧ AllOpen (seen ++ [h]) st' ∧
      Loads J o files st.indexes st'.indexes ∧ PreparedFrom h q ∧
      StoreOfFirst w (seen ++ [h]) st'.indexes h q := by
  unfold prepareHolder at hp
  cases hf : HMap.find h.store.path st.stores with
  | some s =>
    rw [hf] at hp
    cases hp
    obtain ⟨h0, db, f1, f2, f3⟩ := (hi _ _).1 hf
    have hsame : ∀ p, firstAt (seen ++ [h]) p = firstAt seen p := by
      intro p
      rw [firstAt_snoc]
      cases hs : firstAt seen p with
      | some x => rfl
      | none =>
        simp only
        rw [if_neg]
        rintro rfl
        rw [f1] at hs
        cases hs
    refine ⟨fun p s => ?_, fun p h0 hx => ha p h0 (hsame p ▸ hx), .refl _, ⟨rfl, rfl, rfl, rfl, rfl⟩,
      h0, db, firstAt_append f1, f2, f3⟩
    rw [hsame]
    exact hi p s
  | none =>
    rw [hf] at hp
    obtain ⟨⟨db, idx'⟩, h1, h2⟩ := Option.map_eq_some_iff.1 hp
    cases h2
    obtain ⟨hl, hfd⟩ := ensureStore_loads h1
    have hnone : firstAt seen h.store.path = none := by
      cases hs : firstAt seen h.store.path with
      | none => rfl
      | some x =>
        have := ha _ _ hs
        rw [hf] at this
        cases this
    have hnew : firstAt (seen ++ [h]) h.store.path = some h := by
      rw [firstAt_snoc, hnone]
      simp
    refine ⟨fun p s => ?_, fun p h0 hx => ?_, hl, ⟨rfl, rfl, rfl, rfl, rfl⟩, h, db, hnew, hfd, rfl⟩
    · simp only
      rw [HMap.find_insert']
      by_cases hpp : p = h.store.path
      · subst hpp
        rw [if_pos rfl, hnew]
        constructor
        · rintro ⟨⟩
          exact ⟨h, db, rfl, hfd, rfl⟩
        · rintro ⟨h0, db', e1, e2, rfl⟩
          cases e1
          rw [hfd] at e2
          cases e2
          rfl
      · rw [if_neg hpp, firstAt_snoc]
        have hother : (match firstAt seen p with
            | some x => some x
            | none => if h.store.path = p then some h else none) = firstAt seen p := by
          cases firstAt seen p with
          | some x => rfl
          | none => simp [Ne.symm hpp]
        rw [hother]
        constructor
        · intro hs
          obtain ⟨h0, d, e1, e2, e3⟩ := (hi p s).1 hs
          exact ⟨h0, d, e1, hl.kept _ _ e2, e3⟩
        · rintro ⟨h0, d, e1, e2, rfl⟩
          obtain ⟨s', hs'⟩ := Option.isSome_iff_exists.1 (ha p h0 e1)
          obtain ⟨h0', d', e1', e2', rfl⟩ := (hi p s').1 hs'
          rw [e1] at e1'
          cases e1'
          rw [hl.kept _ _ e2'] at e2
          cases e2
          exact hs'
    · simp only
      rw [HMap.find_insert']
      by_cases hpp : p = h.store.path
      · rw [if_pos hpp]
        rfl
      · rw [if_neg hpp]
        rw [firstAt_snoc] at hx
        cases hs : firstAt seen p with
        | some x => exact ha p x hs
        | none =>
          rw [hs] at hx
          simp [Ne.symm hpp] at hx

theorem Spec.StoreOfFirst.mono {hs more : List Holder} {m m' : HMap Text (SMap Bytes Bytes)}
    {h : Holder} {q : Subquery} (hq : StoreOfFirst w hs m h q) (hl : Loads J o files m m') :
    StoreOfFirst w (hs ++ more) m' h q := by
  obtain ⟨h0, db, h1, h2, h3⟩ := hq
  exact ⟨h0, db, firstAt_append h1, hl.kept _ _ h2, h3⟩

theorem prepareAll_spec {hs : List Holder} : ∀ {seen : List Holder} {st st' : Prepared}
    {qs : List Subquery}, StoresOf w seen st → AllOpen seen st →
    prepareAll w J o files st hs = some (qs, st') →
    StoresOf w (seen ++ hs) st' ∧ AllOpen (seen ++ hs) st' ∧
      Loads J o files st.indexes st'.indexes ∧
      List.Forall₂ (fun h q => PreparedFrom h q ∧ StoreOfFirst w (seen ++ hs) st'.indexes h q)
        hs qs := by
  induction hs with
  | nil =>
    intro seen st st' qs hi ha h
    cases h
    rw [List.append_nil]
    exact ⟨hi, ha, .refl _, .nil⟩
  | cons h t ih =>
    intro seen st st' qs hi ha hp
    unfold prepareAll at hp
    obtain ⟨⟨q, st1⟩, h1, h2⟩ := Option.bind_eq_some_iff.1 hp
    obtain ⟨⟨qs', st2⟩, h3, h4⟩ := Option.map_eq_some_iff.1 h2
    cases h4
    obtain ⟨a1, a2, a3, a4, a5⟩ := prepareHolder_spec hi ha h1
    obtain ⟨b1, b2, b3, b4⟩ := ih a1 a2 h3
    have e : seen ++ [h] ++ t = seen ++ h :: t := by simp
    rw [e] at b1 b2 b4
    exact ⟨b1, b2, a3.trans b3, .cons ⟨a4, e ▸ a5.mono b3⟩ b4⟩

theorem prepareLines_spec {parse : Text → Option (List Holder × MatchOpts)} {ls : List Text} :
    ∀ {seen : List Holder} {st st' : Prepared} {out : List (List Subquery × MatchOpts)},
    StoresOf w seen st → AllOpen seen st →
    prepareLines w J parse o files st ls = some (out, st') →
    ∃ reqs, (ls.filter fun l => !l.isEmpty).mapM parse = some reqs ∧
      Loads J o files st.indexes st'.indexes ∧
      List.Forall₂ (fun (req : List Holder × MatchOpts) (r : List Subquery × MatchOpts) =>
        r.2 = req.2 ∧ List.Forall₂ (fun h q => PreparedFrom h q ∧
          StoreOfFirst w (seen ++ reqs.flatMap Prod.fst) st'.indexes h q) req.1 r.1) reqs out := by
  induction ls with
  | nil =>
    intro seen st st' out _ _ h
    cases h
    exact ⟨[], rfl, .refl _, .nil⟩
  | cons l t ih =>
    intro seen st st' out hi ha hp
    unfold prepareLines at hp
    by_cases he : l.isEmpty
    · rw [if_pos he] at hp
      obtain ⟨reqs, h1, h2⟩ := ih hi ha hp
      refine ⟨reqs, ?_, h2⟩
      rw [List.filter_cons_of_neg (by simp [he])]
      exact h1
    · rw [if_neg he] at hp
      obtain ⟨⟨hs, opts⟩, h1, h2⟩ := Option.bind_eq_some_iff.1 hp
      obtain ⟨⟨qs, st1⟩, h3, h4⟩ := Option.bind_eq_some_iff.1 h2
      obtain ⟨⟨out', st2⟩, h5, h6⟩ := Option.map_eq_some_iff.1 h4
      cases h6
      obtain ⟨a1, a2, a3, a4⟩ := prepareAll_spec hi ha h3
      obtain ⟨reqs, b1, b2, b3⟩ := ih a1 a2 h5
      have e : seen ++ hs ++ reqs.flatMap Prod.fst =
          seen ++ ((hs, opts) :: reqs).flatMap Prod.fst := by simp
      rw [e] at b3
      refine ⟨(hs, opts) :: reqs, ?_, a3.trans b2, .cons ⟨rfl, ?_⟩ b3⟩
      · rw [List.filter_cons_of_pos (by simp [he]), List.mapM_cons, h1, b1]
        rfl
      · exact a4.imp fun _ _ h => ⟨h.1, e ▸ h.2.mono b2⟩

/-- **C99**: what is prepared from a file are the requests in its lines, in their order, with the
phrase matches of each one in order and with their fields. The store of a phrase match is the index of
its path, opened with what the first placeholder of the file with this path says. Indexes that were
there stay as they are, others are loaded from their two files. -/
theorem C99_prepare {parse : Text → Option (List Holder × MatchOpts)}
    {indexes indexes' : HMap Text (SMap Bytes Bytes)} {datafile : Text}
    {out : List (List Subquery × MatchOpts)}
    (h : prepare w J parse o files indexes datafile = some (out, indexes')) :
    ∃ reqs, ((linesFrom [] (files datafile)).filter fun l => !l.isEmpty).mapM parse = some reqs ∧
      Loads J o files indexes indexes' ∧
      List.Forall₂ (fun (req : List Holder × MatchOpts) (r : List Subquery × MatchOpts) =>
        r.2 = req.2 ∧ List.Forall₂ (fun h q => PreparedFrom h q ∧
          StoreOfFirst w (reqs.flatMap Prod.fst) indexes' h q) req.1 r.1) reqs out := by
  unfold prepare at h
  obtain ⟨⟨out', st⟩, h1, h2⟩ := Option.map_eq_some_iff.1 h
  cases h2
  exact prepareLines_spec (seen := []) (fun p s => by simp [HMap.find, firstAt])
    (fun p h0 h => by simp [firstAt] at h) h1

theorem Spec.Loads.isSome {a b : HMap Text (SMap Bytes Bytes)} (h : Loads J o files a b) {n : Text}
    (hn : (HMap.find n a).isSome) : (HMap.find n b).isSome := by
  obtain ⟨db, hdb⟩ := Option.isSome_iff_exists.1 hn
  rw [h.kept n db hdb]
  rfl

theorem prepareHolder_returns {st : Prepared} {h : Holder}
    (hl : (HMap.find (indexName (w.file h.store)) st.indexes).isSome ∨
      (load J o [] (files (w.file h.store)) (files (splitsName (w.file h.store)))).isSome) :
    ∃ q st', prepareHolder w J o files st h = some (q, st') ∧
      Loads J o files st.indexes st'.indexes := by
  unfold prepareHolder
  cases hf : HMap.find h.store.path st.stores with
  | some s => exact ⟨_, _, rfl, .refl _⟩
  | none =>
    have : ∃ r, ensureStore J o files st.indexes (w.file h.store) = some r := by
      unfold ensureStore
      cases hi : HMap.find (indexName (w.file h.store)) st.indexes with
      | some db => exact ⟨_, rfl⟩
      | none =>
        rw [hi] at hl
        obtain ⟨db, hdb⟩ := Option.isSome_iff_exists.1 (hl.resolve_left (by simp))
        simp only
        rw [hdb]
        exact ⟨_, rfl⟩
    obtain ⟨⟨db, idx'⟩, hr⟩ := this
    rw [hr]
    exact ⟨_, _, rfl, (ensureStore_loads hr).1⟩

theorem prepareAll_returns {hs : List Holder} : ∀ {st : Prepared},
    (∀ h ∈ hs, (HMap.find (indexName (w.file h.store)) st.indexes).isSome ∨
      (load J o [] (files (w.file h.store)) (files (splitsName (w.file h.store)))).isSome) →
    ∃ qs st', prepareAll w J o files st hs = some (qs, st') ∧
      Loads J o files st.indexes st'.indexes := by
  induction hs with
  | nil => exact fun _ => ⟨_, _, rfl, .refl _⟩
  | cons h t ih =>
    intro st hl
    obtain ⟨q, st1, h1, l1⟩ := prepareHolder_returns (w := w) (h := h) (hl h (by simp))
    obtain ⟨qs, st2, h2, l2⟩ := ih (st := st1) fun x hx => (hl x (by simp [hx])).imp_left l1.isSome
    refine ⟨q :: qs, st2, ?_, l1.trans l2⟩
    rw [prepareAll, h1]
    simp only [Option.bind_some]
    rw [h2]
    rfl

theorem prepareLines_returns {parse : Text → Option (List Holder × MatchOpts)} {ls : List Text} :
    ∀ {st : Prepared} {reqs : List (List Holder × MatchOpts)},
    (ls.filter fun l => !l.isEmpty).mapM parse = some reqs →
    (∀ r ∈ reqs, ∀ h ∈ r.1, (HMap.find (indexName (w.file h.store)) st.indexes).isSome ∨
      (load J o [] (files (w.file h.store)) (files (splitsName (w.file h.store)))).isSome) →
    ∃ r, prepareLines w J parse o files st ls = some r := by
  induction ls with
  | nil => exact fun _ _ => ⟨_, rfl⟩
  | cons l t ih =>
    intro st reqs hp hl
    unfold prepareLines
    by_cases he : l.isEmpty
    · rw [if_pos he]
      rw [List.filter_cons_of_neg (by simp [he])] at hp
      exact ih hp hl
    · rw [if_neg he]
      rw [List.filter_cons_of_pos (by simp [he]), List.mapM_cons] at hp
      obtain ⟨r, hr, hp⟩ := Option.bind_eq_some_iff.1 hp
      obtain ⟨rs, hrs, hp⟩ := Option.bind_eq_some_iff.1 hp
      cases hp
      obtain ⟨qs, st1, h1, l1⟩ := prepareAll_returns (w := w) (hs := r.1) (hl r (by simp))
      obtain ⟨p, h2⟩ := ih (st := st1) hrs
        fun x hx h hh => (hl x (by simp [hx]) h hh).imp_left l1.isSome
      rw [hr]
      simp only [Option.bind_some]
      rw [h1]
      simp only [Option.bind_some]
      rw [h2]
      exact ⟨_, rfl⟩

/-- **C99**: the requests are prepared if every line that is not empty can be read and every index is
there or can be loaded. -/
theorem C99_returns {parse : Text → Option (List Holder × MatchOpts)}
    {indexes : HMap Text (SMap Bytes Bytes)} {datafile : Text}
    {reqs : List (List Holder × MatchOpts)}
    (hp : ((linesFrom [] (files datafile)).filter fun l => !l.isEmpty).mapM parse = some reqs)
    (hl : ∀ r ∈ reqs, ∀ h ∈ r.1, (HMap.find (indexName (w.file h.store)) indexes).isSome ∨
      (load J o [] (files (w.file h.store)) (files (splitsName (w.file h.store)))).isSome) :
    ∃ r, prepare w J parse o files indexes datafile = some r := by
  obtain ⟨r, hr⟩ := prepareLines_returns (w := w) (J := J) (o := o) (files := files)
    (st := ⟨[], indexes⟩) hp hl
  unfold prepare
  rw [hr]
  exact ⟨_, rfl⟩

/-- **C99**, if all placeholders with one path say the same: every phrase match has a store opened as
its own placeholder says. -/
theorem C99_agree {hs : List Holder} (ha : PathsAgree hs) {indexes : HMap Text (SMap Bytes Bytes)}
    {h : Holder} (hh : h ∈ hs) {q : Subquery} (hq : StoreOfFirst w hs indexes h q) :
    ∃ db, HMap.find (indexName (w.file h.store)) indexes = some db ∧ q.store = w.store h.store db := by
  obtain ⟨h0, db, h1, h2, h3⟩ := hq
  unfold firstAt at h1
  have := ha h0 (List.mem_of_find?_eq_some h1) h hh (by simpa using List.find?_some h1)
  rw [← this]
  exact ⟨db, h2, h3⟩

end

/-! ## Names -/

theorem replaceAll_skip {pat new : Text} {p : Text} (hp : pat = '.' :: p) (t : Text) :
    ∀ (pre : Text) (n : ℕ), '.' ∉ pre →
      replaceAll pat new (pre.length + n) (pre ++ t) = pre ++ replaceAll pat new n t
  | [], n, _ => by simp
  | c :: pre, n, h => by
    have hc : c ≠ '.' := fun e => h (by simp [e])
    have ht : '.' ∉ pre := fun e => h (by simp [e])
    have hn : (c :: pre).length + n = (pre.length + n) + 1 := by simp; omega
    rw [hn, List.cons_append, replaceAll, if_neg (by simp [hp, List.isPrefixOf, Ne.symm hc]),
      replaceAll_skip hp t pre n ht]
    rfl

theorem replaceAll_after {pat new p : Text} (hp : pat = '.' :: p) (pre t : Text) (h : '.' ∉ pre) :
    replaceAll pat new (pre ++ t).length (pre ++ t) = pre ++ replaceAll pat new t.length t := by
  rw [List.length_append, replaceAll_skip hp t pre _ h]

theorem lastPart {dir last : Text} (hd : dir = [] ∨ ∃ d, dir = d ++ ['/']) (hl : '/' ∉ last) :
    ((dir ++ last).reverse.takeWhile (· ≠ '/')).reverse = last := by
  have hall : ∀ c ∈ last.reverse, (decide (c ≠ '/')) = true := fun c hc => by
    simp only [ne_eq, decide_eq_true_eq]
    rintro rfl
    exact hl (List.mem_reverse.1 hc)
  rw [List.reverse_append, List.takeWhile_append_of_pos hall]
  rcases hd with rfl | ⟨d, rfl⟩
  · simp
  · simp

/-- **C99**: the names. The index at a path `….gridstore.rocksdb` is loaded from the files with the
same name and the endings `.gridstore.dat.lz4` and `.gridstore.splits.lz4`, wherever the path is, and
put under the name it has in the path. -/
theorem C99_names {dir base : Text} (hd : dir = [] ∨ ∃ d, dir = d ++ ['/']) (hs : '/' ∉ base)
    (hb : '.' ∉ base) :
    storeName (dir ++ (base ++ ".gridstore.rocksdb".toList)) = base ++ ".gridstore.dat.lz4".toList ∧
      indexName (base ++ ".gridstore.dat.lz4".toList) = base ++ ".gridstore.rocksdb".toList ∧
      splitsName (base ++ ".gridstore.dat.lz4".toList) = base ++ ".gridstore.splits.lz4".toList := by
  refine ⟨?_, ?_, ?_⟩
  · unfold storeName
    rw [lastPart hd (by simp [hs])]
    simp only
    rw [replaceAll_after (p := "rocksdb".toList) (by decide +kernel) _ _ hb]
    congr 1
  · unfold indexName
    rw [replaceAll_after (p := "dat.lz4".toList) (by decide +kernel) _ _ hb]
    congr 1
  · unfold splitsName
    rw [replaceAll_after (p := "gridstore.dat.lz4".toList) (by decide +kernel) _ _ hb]
    congr 1

/-- **C99** (a finding): of an index whose path is not `….gridstore.rocksdb` the boundaries are read
from the file with the records. -/
theorem C99_names_other {dir base : Text} (hd : dir = [] ∨ ∃ d, dir = d ++ ['/']) (hs : '/' ∉ base)
    (hb : '.' ∉ base) :
    splitsName (storeName (dir ++ (base ++ ".rocksdb".toList))) =
      storeName (dir ++ (base ++ ".rocksdb".toList)) := by
  have h : storeName (dir ++ (base ++ ".rocksdb".toList)) = base ++ ".dat.lz4".toList := by
    unfold storeName
    rw [lastPart hd (by simp [hs])]
    simp only
    rw [replaceAll_after (p := "rocksdb".toList) (by decide +kernel) _ _ hb]
    congr 1
  rw [h]
  unfold splitsName
  rw [replaceAll_after (p := "gridstore.dat.lz4".toList) (by decide +kernel) _ _ hb]
  congr 1

/-- **C99**: an index that was built, dumped and put in the bucket is the one that is opened, byte for
byte, by its path, unless there is one under its name already. -/
theorem C99_loaded (J : JsonCrate) (takes : ℕ → ℕ → ℕ) (htakes : ∀ i n, n ≤ takes i n)
    (o o' : IterOrder) (cs : List Call) (hc : ∀ c ∈ cs, c.Wf)
    (hn : ∀ c ∈ cs, c.NonEmpty) (hscore : ∀ c ∈ cs, ∀ e ∈ c.entries, e.score ≤ 15)
    (b : Builder) (hrun : Builder.run cs = some b) (hasc : b.bounds.Pairwise (· < ·))
    (db : SMap Bytes Bytes) (hfin : finish o b = some db) (hsmall : SmallRecords db)
    {dir base : Text} (hd : dir = [] ∨ ∃ d, dir = d ++ ['/']) (hs : '/' ∉ base) (hb : '.' ∉ base)
    (files : Text → Text)
    (hfiles : dump J takes db = some (files (base ++ ".gridstore.dat.lz4".toList),
      files (base ++ ".gridstore.splits.lz4".toList)))
    {h : Holder} (hpath : h.store.path = dir ++ (base ++ ".gridstore.rocksdb".toList))
    (st : Prepared) (hnew : HMap.find h.store.path st.stores = none)
    (hno : HMap.find (base ++ ".gridstore.rocksdb".toList) st.indexes = none) :
    ∃ st', prepareHolder fullOpening J o' files st h = some
      (h.subquery (Store.openWith db h.store.zoom h.store.typeId h.store.radius h.store.bboxes
        h.store.maxScore), st') := by
  obtain ⟨data, splits, hdump, hload⟩ :=
    C73_roundtrip J takes htakes o o' cs hc hn hscore b hrun hasc db hfin hsmall
  rw [hfiles] at hdump
  cases hdump
  obtain ⟨n1, n2, n3⟩ := C99_names hd hs hb
  refine ⟨⟨HMap.insert h.store.path (Store.openWith db h.store.zoom h.store.typeId h.store.radius
    h.store.bboxes h.store.maxScore) st.stores,
    HMap.insert (base ++ ".gridstore.rocksdb".toList) db st.indexes⟩, ?_⟩
  have hfile : fullOpening.file h.store = base ++ ".gridstore.dat.lz4".toList := by
    rw [← n1, ← hpath]
    rfl
  have hen : ensureStore J o' files st.indexes (fullOpening.file h.store) =
      some (db, HMap.insert (base ++ ".gridstore.rocksdb".toList) db st.indexes) := by
    unfold ensureStore
    rw [hfile, n2, hno]
    simp only
    rw [n3, hload]
    rfl
  unfold prepareHolder
  rw [hnew]
  simp only
  rw [hen]
  rfl

/-! ## Cases -/

/-- Files: requests in `q`, and an index without boundaries in `a`. -/
def someFiles : Text → Text := fun name =>
  if name = "q".toList then "1\n\n2\n".toList
  else if name = "a.gridstore.dat.lz4".toList then
    ("{\"grid_key\":{\"phrase_id\":1,\"lang_set\":1},\"entries\":[{\"relev\":0.6,\"score\":1," ++
      "\"x\":8,\"y\":8,\"id\":3,\"source_phrase_hash\":0}]}\n").toList
  else if name = "a.gridstore.splits.lz4".toList then "[]".toList
  else []

/-- A placeholder of an index at a zoom. -/
def holderAt (path : String) (zoom idx : ℕ) : Holder where
  store := ⟨path.toList, zoom, 0, .fin 40, [⟨0, 0, 63, 63⟩], .fin 1⟩
  idx := idx
  nonOverlapping := []
  weight := 1
  matchKeys := []
  mask := 1

/-- What the two lines stand for. -/
def someParse (l : Text) : Option (List Holder × MatchOpts) :=
  if l = "1".toList then some ([holderAt "d/a.gridstore.rocksdb" 6 0], ⟨none, none, 6⟩)
  else if l = "2".toList then
    some ([holderAt "d/a.gridstore.rocksdb" 14 1, holderAt "e/a.gridstore.rocksdb" 14 2],
      ⟨none, none, 14⟩)
  else none

/-- **C99** (a finding): the first placeholder with a path decides. The second request of the file says
zoom 14 for both of its phrase matches; the one with the path of the first request has zoom 6, the
other one, with another path to the same index, has 14. -/
theorem C99_first_wins :
    (prepare fullOpening plainJson someParse .id someFiles [] "q".toList).map (fun r =>
      r.1.map fun q => (q.1.map fun p => (p.idx, p.store.zoom), q.2.zoom)) =
        some [([(0, 6)], 6), ([(1, 6), (2, 14)], 14)] := by
  decide +kernel

/-- One index was loaded, under its name, with its record. -/
example : (prepare fullOpening plainJson someParse .id someFiles [] "q".toList).map (fun r =>
    r.2.map fun p => (p.1, p.2.length)) = some [("a.gridstore.rocksdb".toList, 2)] := by
  decide +kernel

/-- Placeholders that agree. -/
example : PathsAgree [holderAt "d/a.gridstore.rocksdb" 6 0, holderAt "d/a.gridstore.rocksdb" 6 1] ∧
    ¬ PathsAgree [holderAt "d/a.gridstore.rocksdb" 6 0, holderAt "d/a.gridstore.rocksdb" 14 1] := by
  constructor
  · intro a ha b hb _
    simp only [List.mem_cons, List.not_mem_nil, or_false] at ha hb
    rcases ha with rfl | rfl <;> rcases hb with rfl | rfl <;> rfl
  · intro h
    have := congrArg StoreHolder.zoom (h (holderAt "d/a.gridstore.rocksdb" 6 0) (by simp)
      (holderAt "d/a.gridstore.rocksdb" 14 1) (by simp) rfl)
    revert this
    decide

/-- Files that hold the dump of an index are found by its path: with the store of the calls in the
example of C73, and any files with its two texts. -/
example (db : SMap Bytes Bytes) (t : Text × Text) (ht : dump plainJson (fun _ n => n) db = some t) :
    ∃ files : Text → Text, dump plainJson (fun _ n => n) db =
      some (files ("a".toList ++ ".gridstore.dat.lz4".toList),
        files ("a".toList ++ ".gridstore.splits.lz4".toList)) :=
  ⟨fun n => if n = "a".toList ++ ".gridstore.dat.lz4".toList then t.1 else t.2, by
    simp only
    rw [if_pos trivial, if_neg (by decide +kernel)]
    exact ht⟩

/-- The names of an index. -/
example : storeName "some/where/aa-place.gridstore.rocksdb".toList =
    "aa-place.gridstore.dat.lz4".toList ∧
    '/' ∉ "aa-place".toList ∧ '.' ∉ "aa-place".toList := by
  decide +kernel

end Carmen
