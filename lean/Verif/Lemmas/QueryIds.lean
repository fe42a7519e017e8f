import Verif.Lemmas.QueryAny
import Verif.Lemmas.Bytes

/-!
# The numbers of query results have their ranges, whatever bytes are in the database
-/

namespace Carmen
open Format

theorem readU32_lt {buf : Bytes} (hb : IsBytes buf) {off n : ℕ} (h : readU32 buf off = some n) :
    n < 2 ^ 32 := by
  unfold readU32 at h
  obtain ⟨b, hs, rfl⟩ := Option.map_eq_some_iff.1 h
  unfold slice at hs
  split_ifs at hs with hl
  have hs' := Option.some.inj hs
  have h1 : IsBytes b := by
    intro x hx
    rw [← hs'] at hx
    exact hb x (List.mem_of_mem_drop (List.mem_of_mem_take hx))
  have h2 : b.length ≤ 4 := by
    rw [← hs']
    exact List.length_take_le _ _
  calc ofLe b < 256 ^ b.length := ofLe_lt h1
    _ ≤ 256 ^ 4 := Nat.pow_le_pow_right (by decide) h2
    _ = 2 ^ 32 := by decide

theorem readFixedVec_lt {buf : Bytes} (hb : IsBytes buf) {addr : ℕ} {ids : List ℕ}
    (h : readFixedVec buf addr = some ids) : ∀ i ∈ ids, i < 2 ^ 32 := by
  unfold readFixedVec at h
  simp only [Option.bind_eq_bind, Option.bind_eq_some_iff] at h
  obtain ⟨p, -, h⟩ := h
  intro i hi
  obtain ⟨a, -, ha⟩ := mapM_mem h i hi
  exact readU32_lt hb ha

/-- The numbers of a result have at most their bits. -/
def InRange (r : MatchEntry) : Prop :=
  r.entry.id < 2 ^ 24 ∧ r.entry.score < 2 ^ 4 ∧ r.entry.x < 2 ^ 16 ∧ r.entry.y < 2 ^ 16 ∧
    r.entry.hash < 2 ^ 8

theorem InRange.wf {r : MatchEntry} (h : InRange r) : r.entry.Wf := by
  obtain ⟨h1, h2, h3, h4, h5⟩ := h
  exact ⟨by omega, h3, h4, by omega, h5⟩

theorem decodeMatching_inRange {M : KMerger} {chk : Bool} {opts : MatchOpts} {ml : Bool} {radius : F64} {v : Bytes}
    (hb : IsBytes v) {es : List MatchEntry} (h : decodeMatching M chk opts ml radius v = some es) :
    ∀ r ∈ es, InRange r := by
  unfold decodeMatching at h
  simp only [Option.bind_eq_bind, Option.bind_eq_some_iff] at h
  obtain ⟨root, -, rss, -, groups, hg, h⟩ := h
  cases h
  intro r hr
  obtain ⟨l, hl, hr⟩ := List.mem_flatten.1 hr
  obtain ⟨g, hgm, hgl⟩ := mapM_mem hg l hl
  simp only [Option.bind_eq_some_iff] at hgl
  obtain ⟨streams, hst, merged, hm, es, hes, hgl⟩ := hgl
  cases hgl
  obtain ⟨l, hl, hr⟩ := List.mem_flatten.1 hr
  obtain ⟨sc, hsc, hids⟩ := mapM_mem hes l hl
  obtain ⟨ids, hrd, hids⟩ := Option.bind_eq_some_iff.1 hids
  cases hids
  obtain ⟨i, hi, rfl⟩ := List.mem_map.1 hr
  have := readFixedVec_lt hb hrd i hi
  have hscore : sc.score < 2 ^ 4 := by
    obtain ⟨l', hl', hmem⟩ := mergeScores_mem hm sc hsc
    obtain ⟨rs, -, hrs⟩ := mapM_mem hst l' hl'
    simp only [Option.bind_eq_some_iff] at hrs
    obtain ⟨cs, -, hrs⟩ := hrs
    split_ifs at hrs
    rw [← Option.some.inj hrs] at hmem
    obtain ⟨c, -, rfl⟩ := List.mem_map.1 hmem
    have h15 : rs.relevScore &&& 15 < 2 ^ 4 :=
      lt_of_le_of_lt Nat.and_le_right (by decide)
    unfold scoreCoord
    split <;> exact h15
  obtain ⟨hx, hy⟩ := deinterleave_lt sc.coord.coord
  refine ⟨?_, hscore, hx, hy, lt_of_le_of_lt Nat.and_le_right (by decide)⟩
  change i >>> 8 < 2 ^ 24
  rw [Nat.shiftRight_eq_div_pow]
  omega

theorem takeMatching_sublist {k : MatchKey} {m : TypeMarker} {l rows : List (Bytes × Bytes)}
    (h : Store.takeMatching k m l = some rows) : rows.Sublist l := by
  induction l generalizing rows with
  | nil =>
    unfold Store.takeMatching at h
    cases h
    exact List.Sublist.slnil
  | cons r t ih =>
    unfold Store.takeMatching at h
    split at h
    · cases h
    · cases h
      exact List.nil_sublist _
    · obtain ⟨rows', hr, rfl⟩ := Option.map_eq_some_iff.1 h
      exact (ih hr).cons_cons r

theorem queryRows_sublist {s : Store} {chk : Bool} {mk : MatchKey} {rows : List (Bytes × Bytes)}
    (h : s.queryRows chk mk = some rows) : rows.Sublist s.db := by
  unfold Store.queryRows at h
  simp only [Option.bind_eq_bind, Option.bind_eq_some_iff] at h
  obtain ⟨plan, -, h⟩ := h
  exact (takeMatching_sublist h).trans (List.dropWhile_sublist _)

theorem fillQueue_inRange {M : KMerger} {H : Heap QueueElement.key} {chk : Bool} {s : Store} {mk : MatchKey}
    {opts : MatchOpts} {n : ℕ} {rows : List (Bytes × Bytes)} (hrows : ∀ r ∈ rows, IsBytes r.2)
    {q q' : List QueueElement} (h : Store.fillQueue M H chk s mk opts n q rows = some q')
    (hq : ∀ e ∈ q, ∀ x ∈ e.next :: e.rest, InRange x) :
    ∀ e ∈ q', ∀ x ∈ e.next :: e.rest, InRange x := by
  induction rows generalizing q with
  | nil =>
    unfold Store.fillQueue at h
    cases h
    exact hq
  | cons r t ih =>
    have ht : ∀ r ∈ t, IsBytes r.2 := fun r hr => hrows r (List.mem_cons_of_mem _ hr)
    unfold Store.fillQueue at h
    simp only [Option.bind_eq_bind, Option.bind_eq_some_iff] at h
    obtain ⟨e, he, h⟩ := h
    cases e with
    | none => exact ih ht h hq
    | some e =>
      simp only [Option.bind_eq_some_iff] at h
      obtain ⟨q1, h1, h⟩ := h
      refine ih ht h ?_
      intro x hx
      rcases pushRow_mem h1 x hx with rfl | hx
      · unfold Store.rowElement at he
        simp only [Option.bind_eq_bind, Option.bind_eq_some_iff] at he
        obtain ⟨ml, -, es, hes, he⟩ := he
        have := decodeMatching_inRange (hrows r List.mem_cons_self) hes
        cases es with
        | nil => simp at he
        | cons a t =>
          simp only [Option.some.injEq] at he
          subst he
          exact this
      · exact hq x hx

theorem getMatching_inRange {M : KMerger} {H : Heap QueueElement.key} {chk : Bool} {s : Store}
    (hb : ∀ r ∈ s.db, IsBytes r.2) {mk : MatchKey} {opts : MatchOpts} {n : ℕ}
    {out : List MatchEntry} (h : s.getMatching M H chk mk opts n = some out) :
    ∀ r ∈ out, InRange r := by
  unfold Store.getMatching at h
  simp only [Option.bind_eq_bind, Option.bind_eq_some_iff] at h
  obtain ⟨rows, hr, q, hf, h⟩ := h
  cases h
  refine drain_mem _ (fillQueue_inRange (fun r h => hb r ((queryRows_sublist hr).subset h)) hf ?_)
  intro e he
  cases he

theorem getMatching_ids {M : KMerger} {H : Heap QueueElement.key} {chk : Bool} {s : Store}
    (hb : ∀ r ∈ s.db, IsBytes r.2) {mk : MatchKey} {opts : MatchOpts} {n : ℕ}
    {out : List MatchEntry} (h : s.getMatching M H chk mk opts n = some out) :
    ∀ r ∈ out, r.entry.id < 2 ^ 24 := fun r hr => (getMatching_inRange hb h r hr).1

end Carmen
