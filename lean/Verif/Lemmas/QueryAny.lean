import Verif.Lemmas.Query
import Verif.Lemmas.QueryOrder

/-!
# What every query result looks like, whatever is in the database
-/

namespace Carmen
open Format

/-- A result as `decode_matching_value` makes it. -/
def IsResult (opts : MatchOpts) (radius : F64) (r : MatchEntry) : Prop :=
  ∃ (ml : Bool) (n score : ℕ) (c : Coord) (i : ℕ), score < 16 ∧
    r = mkMatch ml (relevOfInt n) (scoreCoord opts radius score c) i

theorem mapM_mem {α β : Type} {f : α → Option β} {l : List α} {l' : List β}
    (h : l.mapM f = some l') : ∀ b ∈ l', ∃ a ∈ l, f a = some b := by
  induction l generalizing l' with
  | nil =>
    rw [List.mapM_nil] at h
    cases h
    intro b hb
    cases hb
  | cons a t ih =>
    rw [List.mapM_cons] at h
    simp only [Option.bind_eq_bind, Option.bind_eq_some_iff] at h
    obtain ⟨b, hb, t', ht, h⟩ := h
    cases h
    intro x hx
    rcases List.mem_cons.1 hx with rfl | hx
    · exact ⟨a, List.mem_cons_self, hb⟩
    · obtain ⟨y, hy, hf⟩ := ih ht x hx
      exact ⟨y, List.mem_cons_of_mem _ hy, hf⟩

theorem mergeScores_mem {M : KMerger} {ss : List (List ScoredCoord)} {out : List ScoredCoord}
    (h : mergeScores M ss = some out) : ∀ c ∈ out, ∃ s ∈ ss, c ∈ s := by
  unfold mergeScores at h
  split_ifs at h
  have h' := Option.some.inj h
  have hk := M.law (fun a b : ScoredCoord => decide (b.scoredist < a.scoredist)) ss
    (by intro a; simp) (by
      intro a b c h1 h2
      simp only [decide_eq_true_eq] at h1 h2 ⊢
      exact h2.trans h1) (by
      intro a b c h1 h2
      simp only [decide_eq_false_iff_not, not_lt] at h1 h2 ⊢
      exact h1.trans h2)
  rw [h'] at hk
  intro c hc
  exact List.mem_flatten.1 (hk.perm.mem_iff.1 hc)

theorem decodeMatching_mem {M : KMerger} {chk : Bool} {opts : MatchOpts} {ml : Bool} {radius : F64} {v : Bytes}
    {es : List MatchEntry} (h : decodeMatching M chk opts ml radius v = some es) :
    ∀ r ∈ es, IsResult opts radius r := by
  replace h := decodeMatching_relax h
  unfold decodeMatching at h
  simp only [Option.bind_eq_bind, Option.bind_eq_some_iff] at h
  obtain ⟨root, -, rss, -, groups, hg, h⟩ := h
  cases h
  intro r hr
  obtain ⟨l, hl, hr⟩ := List.mem_flatten.1 hr
  obtain ⟨g, hgm, hgl⟩ := mapM_mem hg l hl
  simp only [Option.bind_eq_some_iff] at hgl
  obtain ⟨streams, hst, merged, hm, es, hes, hgl⟩ := hgl
  cases hgl
  obtain ⟨l, hl, hr⟩ := List.mem_flatten.1 hr
  obtain ⟨sc, hsc, hids⟩ := mapM_mem hes l hl
  obtain ⟨ids, -, hids⟩ := Option.bind_eq_some_iff.1 hids
  cases hids
  obtain ⟨i, -, rfl⟩ := List.mem_map.1 hr
  obtain ⟨s, hs, hscs⟩ := mergeScores_mem hm sc hsc
  obtain ⟨rs, -, hrs⟩ := mapM_mem hst s hs
  obtain ⟨cs, -, hrs⟩ := Option.bind_eq_some_iff.1 hrs
  rw [if_neg (by simp)] at hrs
  cases hrs
  obtain ⟨c, -, rfl⟩ := List.mem_map.1 hscs
  have hg1 : ∃ n, g.1 = relevOfInt n := by
    have hgr := groupBy_isGrouping (fun rs : RelevScore => relevOfInt (rs.relevScore >>> 4)) rss
    obtain ⟨a, ha⟩ := List.exists_mem_of_ne_nil _ (hgr.nonempty g hgm)
    have hmem : g.1 ∈ rss.map (fun rs : RelevScore => relevOfInt (rs.relevScore >>> 4)) := by
      rw [← hgr.labels]
      exact List.mem_flatMap.2 ⟨g, hgm, List.mem_map.2 ⟨a, ha, rfl⟩⟩
    obtain ⟨rs, -, h⟩ := List.mem_map.1 hmem
    exact ⟨_, h.symm⟩
  obtain ⟨n, hn⟩ := hg1
  refine ⟨ml, n, rs.relevScore &&& 15, c, i, ?_, ?_⟩
  · exact Nat.lt_of_le_of_lt Nat.and_le_right (by decide)
  · rw [hn]

theorem rowElement_mem {M : KMerger} {chk : Bool} {s : Store} {mk : MatchKey} {opts : MatchOpts}
    {r : Bytes × Bytes} {e : QueueElement} (h : s.rowElement M chk mk opts r = some (some e)) :
    ∀ x ∈ e.next :: e.rest, IsResult opts s.radius x := by
  unfold Store.rowElement at h
  simp only [Option.bind_eq_bind, Option.bind_eq_some_iff] at h
  obtain ⟨ml, -, es, hes, h⟩ := h
  have := decodeMatching_mem hes
  cases es with
  | nil => simp at h
  | cons a t =>
    simp only [Option.some.injEq] at h
    subst h
    exact this

theorem pushRow_mem {H : Heap QueueElement.key} {n : ℕ} {q q' : List QueueElement}
    {e : QueueElement} (h : Store.pushRow H n q e = some q') : ∀ x ∈ q', x = e ∨ x ∈ q := by
  unfold Store.pushRow at h
  split_ifs at h with h1
  · cases hp : H.peekMin q with
    | none => rw [hp] at h; cases h
    | some w =>
      rw [hp] at h
      simp only at h
      split_ifs at h
      · cases h
        exact fun x hx => Or.inr hx
      · cases h
        intro x hx
        have := (H.replaceMin_perm q w e hp).mem_iff.1 (List.mem_cons_of_mem _ hx)
        rcases List.mem_cons.1 this with h | h
        · exact Or.inl h
        · exact Or.inr h
  · cases h
    intro x hx
    rcases List.mem_cons.1 ((H.push_perm q e).mem_iff.1 hx) with h | h
    · exact Or.inl h
    · exact Or.inr h

theorem fillQueue_mem {M : KMerger} {H : Heap QueueElement.key} {chk : Bool} {s : Store} {mk : MatchKey}
    {opts : MatchOpts} {n : ℕ} {rows : List (Bytes × Bytes)} {q q' : List QueueElement}
    (h : Store.fillQueue M H chk s mk opts n q rows = some q')
    (hq : ∀ e ∈ q, ∀ x ∈ e.next :: e.rest, IsResult opts s.radius x) :
    ∀ e ∈ q', ∀ x ∈ e.next :: e.rest, IsResult opts s.radius x := by
  induction rows generalizing q with
  | nil =>
    unfold Store.fillQueue at h
    cases h
    exact hq
  | cons r t ih =>
    unfold Store.fillQueue at h
    simp only [Option.bind_eq_bind, Option.bind_eq_some_iff] at h
    obtain ⟨e, he, h⟩ := h
    cases e with
    | none => exact ih h hq
    | some e =>
      simp only [Option.bind_eq_some_iff] at h
      obtain ⟨q1, h1, h⟩ := h
      refine ih h ?_
      intro x hx
      rcases pushRow_mem h1 x hx with rfl | hx
      · exact rowElement_mem he
      · exact hq x hx

theorem drain_mem {H : Heap QueueElement.key} {P : MatchEntry → Prop} (fuel : ℕ)
    {q : List QueueElement} (hq : ∀ e ∈ q, ∀ x ∈ e.next :: e.rest, P x) :
    ∀ x ∈ Store.drain H fuel q, P x := by
  induction fuel generalizing q with
  | zero => intro x hx; cases hx
  | succ f ih =>
    intro x hx
    unfold Store.drain at hx
    cases hp : H.peekMax q with
    | none => rw [hp] at hx; cases hx
    | some b =>
      rw [hp] at hx
      have hb := hq b (H.peekMax_mem q b hp)
      simp only at hx
      cases hr : b.rest with
      | nil =>
        rw [hr] at hx
        simp only at hx
        rcases List.mem_cons.1 hx with rfl | hx
        · exact hb _ List.mem_cons_self
        · refine ih ?_ x hx
          intro e he
          exact hq e ((H.popMax_perm q b hp).mem_iff.1 (List.mem_cons_of_mem _ he))
      | cons n r =>
        rw [hr] at hx
        simp only at hx
        rcases List.mem_cons.1 hx with rfl | hx
        · exact hb _ List.mem_cons_self
        · refine ih ?_ x hx
          intro e he
          rcases List.mem_cons.1 ((H.replaceMax_perm q b ⟨n, r⟩ hp).mem_iff.1
            (List.mem_cons_of_mem _ he)) with rfl | he
          · intro y hy
            refine hb y (List.mem_cons_of_mem _ ?_)
            rw [hr]
            exact hy
          · exact hq e he

/-- Every result of a query is made by `decode_matching_value`. -/
theorem getMatching_mem {M : KMerger} {H : Heap QueueElement.key} {chk : Bool} {s : Store}
    {mk : MatchKey} {opts : MatchOpts} {n : ℕ} {out : List MatchEntry}
    (h : s.getMatching M H chk mk opts n = some out) : ∀ r ∈ out, IsResult opts s.radius r := by
  unfold Store.getMatching at h
  simp only [Option.bind_eq_bind, Option.bind_eq_some_iff] at h
  obtain ⟨rows, -, q, hq, h⟩ := h
  cases h
  exact drain_mem _ (fillQueue_mem hq (fun e he => (List.not_mem_nil he).elim))

/-- Relevances of results. -/
theorem IsResult.relev {opts : MatchOpts} {radius : F64} {r : MatchEntry}
    (h : IsResult opts radius r) :
    r.entry.relev ∈ [lit 0.4, lit 0.6, lit 0.8, 1, lit 0.4 * lit 0.96, lit 0.6 * lit 0.96,
      lit 0.8 * lit 0.96, 1 * lit 0.96] := by
  obtain ⟨ml, n, score, c, i, -, rfl⟩ := h
  show relevOfInt n * langFactor ml _ ∈ _
  generalize (scoreCoord opts radius score c).within = w
  have hl : langFactor ml w = 1 ∨ langFactor ml w = lit 0.96 := by
    unfold langFactor
    split_ifs <;> simp
  rcases hl with hl | hl <;> rw [hl]
  · rw [relevOfInt_mul_one]
    have := relevOfInt_cases n
    simp only [List.mem_cons, List.not_mem_nil, or_false] at this ⊢
    tauto
  · have := relevOfInt_cases n
    simp only [List.mem_cons, List.not_mem_nil, or_false] at this ⊢
    rcases this with h | h | h | h <;> rw [h] <;> simp

/-- Relevances of results are finite and between 0 and 1. -/
theorem IsResult.relev_bounds {opts : MatchOpts} {radius : F64} {r : MatchEntry}
    (h : IsResult opts radius r) :
    r.entry.relev.IsFin ∧ r.entry.relev.Valid ∧ 0 < r.entry.relev ∧ r.entry.relev ≤ 1 := by
  have hall : ∀ x ∈ [lit 0.4, lit 0.6, lit 0.8, 1, lit 0.4 * lit 0.96, lit 0.6 * lit 0.96,
      lit 0.8 * lit 0.96, 1 * lit 0.96], x.IsFin ∧ x.Valid ∧ 0 < x ∧ x ≤ 1 := by decide +kernel
  exact hall _ h.relev

/-- Without a proximity point the score-distance is the score, and the distance is zero. -/
theorem IsResult.no_proximity {opts : MatchOpts} {radius : F64} {r : MatchEntry}
    (h : IsResult opts radius r) (hp : opts.proximity = none) :
    r.scoredist = F64.ofNat r.entry.score ∧ r.distance = 0 ∧ r.entry.score < 16 := by
  obtain ⟨ml, n, score, c, i, hs, rfl⟩ := h
  unfold mkMatch scoreCoord
  rw [hp]
  exact ⟨rfl, rfl, hs⟩

end Carmen
