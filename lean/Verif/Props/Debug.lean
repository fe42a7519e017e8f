import Verif.Props.Query

/-!
# C24: where a build with overflow checks and debug assertions differs
-/

namespace Carmen
open Format Spec Builder

/-- The box ends before it starts, in the order of the tiles (z-order). -/
def Spec.Crossed (opts : MatchOpts) : Prop :=
  ∃ b, opts.bbox = some b ∧ interleave b.maxX b.maxY < interleave b.minX b.minY

/-- The debug assertions about sorted tiles hold exactly if the box is not crossed or there are no
tiles and no proximity point. -/
theorem selectAsserts_iff {opts : MatchOpts} {cs : List Coord} (h : Descending cs) :
    selectAsserts opts cs = true ↔ ¬ Crossed opts ∨ (opts.proximity = none ∧ cs = []) := by
  unfold selectAsserts
  cases hob : opts.bbox with
  | none =>
    simp only [true_iff]
    left
    rintro ⟨b, hb, _⟩
    rw [hob] at hb; cases hb
  | some b =>
    have hcr : Crossed opts ↔ interleave b.maxX b.maxY < interleave b.minX b.minY := by
      unfold Crossed
      simp [hob]
    have hsorted : coordAt cs (cs.length - 1) ≤ coordAt cs 0 := by
      rcases Nat.lt_or_ge 1 cs.length with h1 | h1
      · exact (coordAt_lt h (show 0 < cs.length - 1 by omega) (by omega)).le
      · have : cs.length - 1 = 0 := by omega
        rw [this]
    have hr : bboxRangeAsserts cs b =
        decide (interleave b.minX b.minY ≤ interleave b.maxX b.maxY) := by
      unfold bboxRangeAsserts
      simp only [hsorted, decide_true, Bool.or_true, Bool.and_true]
      cases hr : bboxRange cs b with
      | none => simp
      | some r => simp [(bboxRange_some h hr).1]
    rw [hcr]
    simp only [hr, Bool.or_eq_true, Bool.and_eq_true, decide_eq_true_eq, not_lt,
      List.length_eq_zero_iff]
    exact or_comm

theorem mapM_agree {α β : Type} {f g : α → Option β} {l : List α}
    (h : ∀ a ∈ l, f a = g a) : l.mapM f = l.mapM g := by
  induction l with
  | nil => rfl
  | cons a l ih =>
    rw [List.mapM_cons, List.mapM_cons, h a List.mem_cons_self,
      ih fun x hx => h x (List.mem_cons_of_mem _ hx)]

theorem mapM_stuck {α β : Type} {f : α → Option β} {l : List α} {a : α} (ha : a ∈ l)
    (h : f a = none) : l.mapM f = none := by
  induction l with
  | nil => cases ha
  | cons x l ih =>
    rw [List.mapM_cons]
    rcases List.mem_cons.1 ha with rfl | ha
    · rw [h]; rfl
    · rw [ih ha]
      cases f x <;> rfl

section
variable {v : Bytes} {rec : List (RelevScore × List (Coord × List ℕ))}

/-- If the assertions hold for all groups of a record the two builds read it alike. -/
theorem decodeMatching_same (M : KMerger) {opts : MatchOpts} {radius : F64} (ml : Bool)
    (h : ReadsAs v rec)
    (ha : ∀ x ∈ rec, selectAsserts opts (x.2.map Prod.fst) = true) :
    decodeMatching M true opts ml radius v = decodeMatching M false opts ml radius v := by
  obtain ⟨a, hroot, hv⟩ := h.root
  unfold decodeMatching
  rw [hroot]
  simp only [Option.bind_eq_bind, Option.bind_some]
  rw [hv]
  simp only [Option.bind_some]
  congr 1
  refine mapM_agree fun g hg => ?_
  congr 1
  refine mapM_agree fun rs hrs => ?_
  obtain ⟨⟨x, hx, rfl⟩, _⟩ := mem_relevGroups hg hrs
  rw [h.coords x hx]
  simp only [Option.bind_some, ha x hx]
  rfl

/-- If they fail for one, reading the record panics. -/
theorem decodeMatching_asserts (M : KMerger) {opts : MatchOpts} {radius : F64} (ml : Bool)
    (h : ReadsAs v rec) {x : RelevScore × List (Coord × List ℕ)} (hx : x ∈ rec)
    (ha : selectAsserts opts (x.2.map Prod.fst) = false) :
    decodeMatching M true opts ml radius v = none := by
  obtain ⟨a, hroot, hv⟩ := h.root
  unfold decodeMatching
  rw [hroot]
  simp only [Option.bind_eq_bind, Option.bind_some]
  rw [hv]
  simp only [Option.bind_some]
  have hmem : x.1 ∈ (relevGroups rec).flatMap (fun g => g.2.flatMap fun rs => [rs]) := by
    rw [relevGroups_flatMap]
    exact List.mem_flatMap.2 ⟨x, hx, by simp⟩
  obtain ⟨g, hg, hm⟩ := List.mem_flatMap.1 hmem
  obtain ⟨rs, hrs, hm⟩ := List.mem_flatMap.1 hm
  have : x.1 = rs := by simpa using hm
  subst this
  have hgs : (groupBy (fun rs : RelevScore => relevOfInt (rs.relevScore >>> 4))
      (rec.map Prod.fst)) = relevGroups rec := rfl
  rw [hgs, mapM_stuck hg]
  · rfl
  · rw [mapM_stuck hrs]
    · rfl
    · rw [h.coords x hx]
      simp only [Option.bind_some, ha]
      rfl

end

section
variable {db : SMap Bytes Bytes} {s : Store}

/-- The record of a row of a query. -/
theorem row_record (hd : LaidOut db)
    {m : TypeMarker} {st en : ℕ} {r : Bytes × Bytes} (hr : r ∈ db.filter (inRange m st en)) :
    ∃ rec, ReadsAs r.2 rec ∧ ShapeOk (shape rec) ∧
      decodeValue r.2 = some (shapeEntries (shape rec)) := by
  obtain ⟨hr1, hr2⟩ := List.mem_filter.1 hr
  rcases laid_row hd hr1 with ⟨m', k, v, rec, hk, rfl, h1, h2⟩ | hbk
  · exact ⟨rec, h1, h2, h1.decodeValue⟩
  · have : inRange m st en r = false := by
      unfold inRange; rw [hbk, matchesKey_bounds]; rfl
    rw [this] at hr2
    exact absurd hr2 (by simp)

theorem shapeEntries_ne_nil {rec : List (RelevScore × List (Coord × List ℕ))}
    (h : shapeEntries (shape rec) ≠ []) : ∃ x ∈ rec, x.2 ≠ [] := by
  by_contra hc
  push Not at hc
  apply h
  unfold shapeEntries shape
  rw [List.flatMap_eq_nil_iff]
  intro g hg
  obtain ⟨x, hx, rfl⟩ := List.mem_map.1 hg
  simp [hc x hx]

theorem fillQueue_agree {M : KMerger} {H : Heap QueueElement.key} {mk : MatchKey}
    {opts : MatchOpts} {n : ℕ} {chk chk' : Bool} {rows : List (Bytes × Bytes)}
    (h : ∀ r ∈ rows, s.rowElement M chk mk opts r = s.rowElement M chk' mk opts r) :
    ∀ q, Store.fillQueue M H chk s mk opts n q rows = Store.fillQueue M H chk' s mk opts n q rows := by
  induction rows with
  | nil => intro q; rfl
  | cons r t ih =>
    intro q
    have iht := ih fun r hr => h r (List.mem_cons_of_mem _ hr)
    unfold Store.fillQueue
    rw [h r List.mem_cons_self]
    congr 1
    funext e
    cases e with
    | none => exact iht q
    | some e => simp only; congr 1; funext q'; exact iht q'

theorem fillQueue_stuck {M : KMerger} {H : Heap QueueElement.key} {mk : MatchKey}
    {opts : MatchOpts} {n : ℕ} {chk : Bool} {rows : List (Bytes × Bytes)} {r : Bytes × Bytes}
    (hr : r ∈ rows) (h : s.rowElement M chk mk opts r = none) :
    ∀ q, Store.fillQueue M H chk s mk opts n q rows = none := by
  induction rows with
  | nil => cases hr
  | cons x t ih =>
    intro q
    unfold Store.fillQueue
    rcases List.mem_cons.1 hr with rfl | hr
    · rw [h]; rfl
    · have iht := ih hr
      cases s.rowElement M chk mk opts x with
      | none => rfl
      | some e =>
        cases e with
        | none => exact iht q
        | some e =>
          simp only [Option.bind_eq_bind, Option.bind_some]
          cases Store.pushRow H n q e with
          | none => rfl
          | some q' => exact iht q'

/-- Whether a query meets anything: the same query without box, point and limit. -/
theorem rows_answer (hd : LaidOut db)
    (hs : s.db = db) (M : KMerger) (H : Heap QueueElement.key) {mk : MatchKey} {st en : ℕ}
    {m : TypeMarker} (hp : s.fetchPlan false mk.phrase = some (st, en, m)) (hst : st < 2 ^ 32)
    {n : ℕ} (hlim : 1 ≤ n) {opts : MatchOpts} (ho : OptsWf opts) (hn : NumbersOk opts s.radius) :
    ∃ out, s.getMatching M H false mk opts n = some out ∧
      (out = [] ↔ ∀ r ∈ db.filter (inRange m st en), rowOut M s mk opts r = []) := by
  obtain ⟨q, dropped, out, h1, h2, h3⟩ := getMatching_rows (H := H) (n := n)
    (queryRows_eq hd hs hp hst) _
    (rowElement_rows hd ho (boxFit_false opts) hn M mk) (Or.inl hlim)
  refine ⟨out, h1, ?_⟩
  have hperm := h3.perm
  constructor
  · intro ho' r hr
    by_contra hne
    obtain ⟨e, t, he⟩ := List.exists_cons_of_ne_nil hne
    have hmem : (⟨e, t⟩ : QueueElement) ∈
        ((db.filter (inRange m st en)).map (rowOut M s mk opts)).filterMap elemOf :=
      List.mem_filterMap.2 ⟨_, List.mem_map.2 ⟨r, hr, rfl⟩, by rw [he]; rfl⟩
    have hq : q ≠ [] := by
      intro hq
      have := h2.size
      have := List.length_pos_of_mem hmem
      rw [hq] at h2
      have := h2.size
      simp only [List.length_nil] at this
      omega
    obtain ⟨x, hx⟩ := List.exists_mem_of_ne_nil q hq
    have : x.next ∈ out := hperm.mem_iff.2 (List.mem_flatten.2
      ⟨x.stream, List.mem_map.2 ⟨x, hx, rfl⟩, List.mem_cons_self⟩)
    rw [ho'] at this
    cases this
  · intro hall
    have hnil : ((db.filter (inRange m st en)).map (rowOut M s mk opts)).filterMap elemOf = [] := by
      rw [List.filterMap_eq_nil_iff]
      intro es hes
      obtain ⟨r, hr, rfl⟩ := List.mem_map.1 hes
      rw [hall r hr]; rfl
    have hq : q = [] := by
      have h := h2.size
      rw [hnil] at h
      simpa using h
    rw [hq] at hperm
    simpa using hperm

theorem fetchPlan_checked (s : Store) {phrase : MatchPhrase} (h : phrase ≠ .exact (2 ^ 32 - 1)) :
    s.fetchPlan true phrase = s.fetchPlan false phrase := by
  cases phrase with
  | exact id =>
    unfold Store.fetchPlan
    simp only [Bool.true_and, Bool.false_and]
    rw [if_neg, if_neg (by simp)]
    rw [decide_eq_true_iff]
    intro he
    exact h (by congr 1; omega)
  | range a c => rfl

theorem queryRows_checked (s : Store) {mk : MatchKey} (h : mk.phrase ≠ .exact (2 ^ 32 - 1)) :
    s.queryRows true mk = s.queryRows false mk := by
  unfold Store.queryRows
  rw [fetchPlan_checked s h]

theorem fetchPlan_some (s : Store) (phrase : MatchPhrase) :
    ∃ st en m, s.fetchPlan false phrase = some (st, en, m) := by
  cases phrase with
  | exact id => exact ⟨id, (id + 1) % 2 ^ 32, .singlePhrase, rfl⟩
  | range a c =>
    unfold Store.fetchPlan
    simp only
    split <;> exact ⟨_, _, _, rfl⟩

/-- C24: where a build with overflow checks and debug assertions differs from one without. It panics
for the largest phrase id, for which the other finds nothing. For any other phrase, if the corners of
the box are in order or there is no box, the two return the same. If they are not, it panics as soon
as anything is stored under the phrases asked for. -/
theorem C24_debug_build (db : SMap Bytes Bytes) (hd : LaidOut db)
    (s : Store) (hs : s.db = db) (M : KMerger) (H : Heap QueueElement.key) (mk : MatchKey)
    (hst : mk.phrase.start < 2 ^ 32) (opts : MatchOpts) (n : ℕ) :
    (mk.phrase = .exact (2 ^ 32 - 1) → s.getMatching M H true mk opts n = none ∧
      s.getMatching M H false mk opts n = some []) ∧
    (mk.phrase ≠ .exact (2 ^ 32 - 1) →
      (¬ Crossed opts → s.getMatching M H true mk opts n = s.getMatching M H false mk opts n) ∧
      (Crossed opts → s.getMatching M H false mk ⟨none, none, opts.zoom⟩ 1 ≠ some [] →
        s.getMatching M H true mk opts n = none)) := by
  constructor
  · intro hmk
    constructor
    · unfold Store.getMatching Store.queryRows
      rw [hmk]
      rfl
    · have hp : s.fetchPlan false mk.phrase = some (2 ^ 32 - 1, 0, .singlePhrase) := by
        rw [hmk]; rfl
      have hrows : db.filter (inRange .singlePhrase (2 ^ 32 - 1) 0) = [] := by
        rw [List.filter_eq_nil_iff]
        intro r hr h
        obtain ⟨rec, -⟩ := row_record hd (List.mem_filter.2 ⟨hr, h⟩)
        rcases laid_row hd hr with ⟨m', k, v, rec, hk, rfl, -, -⟩ | hbk
        · exact absurd ((inRange_dbKey hk _).1 h).2.2 (by omega)
        · unfold inRange at h
          rw [hbk, matchesKey_bounds] at h
          cases h
      unfold Store.getMatching
      rw [queryRows_eq hd hs hp (by norm_num), hrows]
      rfl
  · intro hmk
    obtain ⟨st, en, m, hp⟩ := fetchPlan_some s mk.phrase
    have hst' := fetchPlan_start hp hst
    have hrows := queryRows_eq hd hs hp hst'
    have hrows' : s.queryRows true mk = some (db.filter (inRange m st en)) := by
      rw [queryRows_checked s hmk, hrows]
    have hsame : (∀ r ∈ db.filter (inRange m st en), s.rowElement M true mk opts r =
        s.rowElement M false mk opts r) →
        s.getMatching M H true mk opts n = s.getMatching M H false mk opts n := by
      intro h
      unfold Store.getMatching
      rw [hrows, hrows']
      simp only [Option.bind_eq_bind, Option.bind_some]
      rw [fillQueue_agree h]
    obtain ⟨out, hout, hnil⟩ := rows_answer hd hs M H hp hst' le_rfl
      (opts := ⟨none, none, opts.zoom⟩) ⟨by simp, by simp⟩ (fun h => absurd rfl h)
    have hans : ∀ r ∈ db.filter (inRange m st en), ∀ es, decodeValue r.2 = some es →
        (rowOut M s mk ⟨none, none, opts.zoom⟩ r = [] ↔ es = []) := by
      intro r hr es hes
      obtain ⟨_, k, e, es', -, -, -, -, -, -, h1, -, -, h2⟩ := row_answers (chk := false) hd
        (opts := ⟨none, none, opts.zoom⟩) (s := s) ⟨by simp, by simp⟩
        (boxFit_false _) (fun h => absurd rfl h) M mk hr
      rw [hes] at h1
      cases h1
      constructor
      · intro h
        rw [h] at h2
        have := h2.symm.eq_nil
        rw [List.map_eq_nil_iff, List.filter_eq_nil_iff] at this
        by_contra hne
        obtain ⟨x, hx⟩ := List.exists_mem_of_ne_nil es hne
        exact this x hx (decide_eq_true trivial)
      · rintro rfl
        exact h2.eq_nil
    refine ⟨?_, fun hcr => ?_⟩
    · intro hncr
      refine hsame fun r hr => ?_
      obtain ⟨rec, h1, h2, h3⟩ := row_record hd hr
      unfold Store.rowElement
      congr 1; funext ml
      rw [decodeMatching_same M ml h1 fun x hx =>
        (selectAsserts_iff (h2.descending hx)).2 (Or.inl hncr)]
    · intro hne
      have : out ≠ [] := by rintro rfl; exact hne hout
      rw [Ne, hnil] at this
      push Not at this
      obtain ⟨r, hr, hro⟩ := this
      obtain ⟨rec, h1, h2, h3⟩ := row_record hd hr
      obtain ⟨x, hx, hx2⟩ := shapeEntries_ne_nil (mt (hans r hr _ h3).2 hro)
      have hf : selectAsserts opts (x.2.map Prod.fst) = false := by
        rw [← Bool.not_eq_true, selectAsserts_iff (h2.descending hx)]
        rintro (h | ⟨_, h⟩)
        · exact h hcr
        · exact hx2 (List.map_eq_nil_iff.1 h)
      unfold Store.getMatching
      rw [hrows']
      simp only [Option.bind_eq_bind, Option.bind_some]
      rw [fillQueue_stuck hr]
      · rfl
      · unfold Store.rowElement
        simp only [Option.bind_eq_bind]
        cases mk.matchesLanguage r.1 with
        | none => rfl
        | some ml => rw [Option.bind_some, decodeMatching_asserts M ml h1 hx hf]; rfl

/-- C24: with a limit of zero a query panics exactly if there is anything to return. -/
theorem C24_zero_limit (db : SMap Bytes Bytes) (hd : LaidOut db)
    (s : Store) (hs : s.db = db) (M : KMerger) (H : Heap QueueElement.key) (mk : MatchKey)
    (hst : mk.phrase.start < 2 ^ 32) (opts : MatchOpts) (ho : OptsWf opts)
    (hn : opts.proximity = none ∨ (opts.zoom ≤ 16 ∧ s.radius ≠ .nan)) :
    s.getMatching M H false mk opts 0 =
      if s.getMatching M H false mk opts 1 = some [] then some [] else none := by
  have hn' : NumbersOk opts s.radius := by
    intro h; rcases hn with h' | h'
    · exact absurd h' h
    · exact h'
  obtain ⟨st, en, m, hp⟩ := fetchPlan_some s mk.phrase
  have hst' := fetchPlan_start hp hst
  obtain ⟨out, hout, hnil⟩ := rows_answer hd hs M H hp hst' le_rfl ho hn'
  have hrow := rowElement_rows hd ho (boxFit_false opts) hn' M mk (m := m) (st := st)
    (en := en)
  rw [hout]
  simp only [Option.some.injEq]
  have key : ∀ rows : List (Bytes × Bytes),
      (∀ r ∈ rows, s.rowElement M false mk opts r = some (elemOf (rowOut M s mk opts r))) →
      Store.fillQueue M H false s mk opts 0 [] rows =
        if ∀ r ∈ rows, rowOut M s mk opts r = [] then some [] else none := by
    intro rows
    induction rows with
    | nil => intro _; rw [if_pos (by simp)]; rfl
    | cons r t ih =>
      intro h
      unfold Store.fillQueue
      rw [h r List.mem_cons_self]
      simp only [Option.bind_eq_bind, Option.bind_some]
      cases he : rowOut M s mk opts r with
      | nil =>
        simp only [elemOf]
        rw [ih fun r hr => h r (List.mem_cons_of_mem _ hr)]
        simp only [List.forall_mem_cons, he, true_and]
      | cons x xs =>
        rw [if_neg (by simp [he])]
        have : H.peekMin [] = none := (H.peekMin_none _).2 rfl
        simp [elemOf, Store.pushRow, this]
  unfold Store.getMatching
  rw [queryRows_eq hd hs hp hst']
  simp only [Option.bind_eq_bind, Option.bind_some]
  rw [key _ hrow]
  by_cases hall : ∀ r ∈ db.filter (inRange m st en), rowOut M s mk opts r = []
  · rw [if_pos hall, if_pos (hnil.2 hall)]
    have : H.peekMax [] = none := (H.peekMax_none _).2 rfl
    simp [Store.queueSize, Store.drain]
  · rw [if_neg hall, if_neg (mt hnil.1 hall)]
    rfl

end

/-- A box that ends before it starts makes the query of the example panic with checks, and so does a
limit of zero without. -/
example : Crossed ⟨some ⟨5, 6, 2, 2⟩, none, 6⟩ ∧
    (Store.new exampleDb).getMatching listMerger (listHeap _) false ⟨.exact 3, 1⟩
      ⟨none, none, 6⟩ 1 ≠ some [] ∧
    (Store.new exampleDb).getMatching listMerger (listHeap _) true ⟨.exact 3, 1⟩
      ⟨some ⟨5, 6, 2, 2⟩, none, 6⟩ 10 = none ∧
    (Store.new exampleDb).getMatching listMerger (listHeap _) false ⟨.exact 3, 1⟩
      ⟨none, none, 6⟩ 0 = none := by
  refine ⟨⟨_, rfl, by decide⟩, by decide +kernel, by decide +kernel, by decide +kernel⟩

/-- A compact append without tiles. -/
def noTilesCalls : List Call := [.compactAppend ⟨1, 1⟩ 1 3 7 8 []]

/-- C24: a compact append without tiles, of which no query returns anything, makes a query with a
proximity point and a box that ends before it starts panic with debug assertions. Without the point,
or with the corners in order, or without debug assertions, there is no panic. -/
theorem C24_no_tiles_panics : ∃ b db, Builder.run noTilesCalls = some b ∧ b.Wf ∧
    finish .id b = some db ∧ SmallRecords db ∧
    (∀ chk, (Store.new db).getMatching listMerger (listHeap _) chk ⟨.exact 1, 1⟩
      ⟨some ⟨5, 6, 2, 2⟩, some (5, 6), 6⟩ 10 = if chk = true then none else some []) ∧
    ∀ opts ∈ ([⟨some ⟨5, 6, 2, 2⟩, none, 6⟩, ⟨some ⟨2, 2, 5, 6⟩, some (5, 6), 6⟩] : List MatchOpts),
      (Store.new db).getMatching listMerger (listHeap _) true ⟨.exact 1, 1⟩ opts 10 = some [] := by
  have hw : ∀ c ∈ noTilesCalls, c.Wf := by
    intro c hc
    simp only [noTilesCalls, List.mem_cons, List.not_mem_nil, or_false] at hc
    subst hc
    simp only [Call.Wf]; decide +kernel
  have hrun : Builder.run noTilesCalls = some ((Builder.run noTilesCalls).get (by decide +kernel)) := by
    simp
  exact ⟨_, (finish .id ((Builder.run noTilesCalls).get (by decide +kernel))).get (by decide +kernel),
    hrun, (refines_run hw hrun).wf, by simp, by decide +kernel, by decide +kernel, by decide +kernel⟩

end Carmen
