import Verif.Spec.Languages
import Verif.Lemmas.Dominates
import Verif.Lemmas.QueryAny
import Verif.Props.QueryOrder

/-!
# C92: more languages
-/

namespace Carmen
open Format Spec Builder

theorem langMatches_within {l l' : ℕ} (h : LangsWithin l l') {stored : ℕ}
    (hm : langMatches l stored = true) : langMatches l' stored = true := by
  unfold langMatches at hm ⊢
  rw [decide_eq_true_iff] at hm ⊢
  rcases hm with hm | ⟨i, hi, h1, h2⟩
  · exact Or.inl hm
  · exact Or.inr ⟨i, hi, h i (List.mem_range.1 hi) h1, h2⟩

/-- Stored relevances times 0.96 are lower. -/
theorem reduced_le : ∀ x ∈ [lit 0.4, lit 0.6, lit 0.8, 1, lit 0.4 * lit 0.96, lit 0.6 * lit 0.96,
    lit 0.8 * lit 0.96, 1 * lit 0.96], x * lit 0.96 ≤ x := by decide +kernel

theorem report_better {opts : MatchOpts} {radius : F64} {a b : Bool} (hab : a = true → b = true)
    {e : GridEntry} (hb : IsResult opts radius (report opts radius b e)) :
    SameOrBetter (report opts radius a e) (report opts radius b e) := by
  cases a with
  | true => rw [hab rfl]; exact Or.inl rfl
  | false =>
    cases b with
    | false => exact Or.inl rfl
    | true =>
      have h1 : (report opts radius true e).entry = e := by simp [report]
      refine Or.inr ⟨rfl, ?_, ?_⟩
      · have := reduced_le _ hb.relev
        rw [h1] at this ⊢
        simp only [report]
        split_ifs
        all_goals first | exact le_rfl | exact this
      · simp [report]

/-- **C92**: asking for more languages brings back the same results, some of them no longer in
another language, and none of them with less relevance. -/
theorem C92_query {db : SMap Bytes Bytes} (hd : LaidOut db) {s : Store} (hs : s.db = db)
    (M : KMerger) (H : Heap QueueElement.key) {chk : Bool} {phrase : MatchPhrase}
    (hst : phrase.start < 2 ^ 32) {l l' : ℕ} (hl : LangsWithin l l') {opts : MatchOpts}
    (ho : OptsWf opts) (hbf : BoxFit chk opts) (hn : NumbersOk opts s.radius) {n : ℕ}
    (hlim : db.length ≤ n) {out : List MatchEntry}
    (hout : s.getMatching M H chk ⟨phrase, l⟩ opts n = some out) :
    ∃ out', s.getMatching M H chk ⟨phrase, l'⟩ opts n = some out' ∧
      ∃ ps : List (MatchEntry × MatchEntry), (ps.map Prod.fst).Perm out ∧
        (ps.map Prod.snd).Perm out' ∧ ∀ p ∈ ps, SameOrBetter p.1 p.2 := by
  obtain ⟨⟨st, en, m⟩, hp⟩ : ∃ plan, s.fetchPlan chk phrase = some plan := by
    cases h : s.fetchPlan chk phrase with
    | some p => exact ⟨p, rfl⟩
    | none =>
      unfold Store.getMatching Store.queryRows at hout
      rw [h] at hout
      simp at hout
  have hst' := fetchPlan_start hp hst
  obtain ⟨o1, a1, a2, -⟩ := getMatching_all (M := M) (H := H) (n := n) (opts := opts)
    (queryRows_eq hd hs (mk := ⟨phrase, l⟩) hp hst') _
    (rowElement_rows hd ho hbf hn M ⟨phrase, l⟩) ((List.length_filter_le _ _).trans hlim)
  obtain ⟨o2, b1, b2, -⟩ := getMatching_all (M := M) (H := H) (n := n) (opts := opts)
    (queryRows_eq hd hs (mk := ⟨phrase, l'⟩) hp hst') _
    (rowElement_rows hd ho hbf hn M ⟨phrase, l'⟩) ((List.length_filter_le _ _).trans hlim)
  rw [hout] at a1
  cases a1
  refine ⟨o2, b1, ?_⟩
  obtain ⟨ps, c1, c2, c3⟩ := pairs_flatMap (R := SameOrBetter) (db.filter (inRange m st en))
    (rowOut M s ⟨phrase, l⟩ opts) (rowOut M s ⟨phrase, l'⟩ opts) (by
      intro r hr
      obtain ⟨rec, k, v, es, hk, hv, hsh, rfl, h1, h2, hes, -, -, hperm⟩ :=
        row_answers hd ho hbf hn M ⟨phrase, l⟩ hr
      obtain ⟨_, k', v', es', hk', -, -, e, -, -, hes', -, -, hperm'⟩ :=
        row_answers hd ho hbf hn M ⟨phrase, l'⟩ hr
      have hkk : k = k' := (dbKey_inj hk hk' (congrArg Prod.fst e)).2
      subst hkk
      rw [hes] at hes'
      cases hes'
      refine ⟨(es.filter (fun e => decide (InBox opts e))).map fun e =>
        (report opts s.radius (langMatches l k.langSet) e,
          report opts s.radius (langMatches l' k.langSet) e), ?_, ?_, ?_⟩
      · rw [List.map_map]; exact hperm.symm
      · rw [List.map_map]; exact hperm'.symm
      · intro p hp
        obtain ⟨e, he, rfl⟩ := List.mem_map.1 hp
        refine report_better (langMatches_within hl) ?_
        refine getMatching_mem b1 _ (b2.mem_iff.2 (List.mem_flatMap.2 ⟨_, hr, ?_⟩))
        exact hperm'.mem_iff.2 (List.mem_map.2 ⟨e, he, rfl⟩))
  exact ⟨ps, c1.trans a2.symm, c2.trans b2.symm, c3⟩

/-- **C92**: without a proximity point, the result at each place is at least as relevant as the one
that was there before. -/
theorem C92_places {db : SMap Bytes Bytes} (hd : LaidOut db) {s : Store} (hs : s.db = db)
    (M : KMerger) (H : Heap QueueElement.key) {chk : Bool} {phrase : MatchPhrase}
    (hst : phrase.start < 2 ^ 32) {l l' : ℕ} (hl : LangsWithin l l') {opts : MatchOpts}
    (ho : OptsWf opts) (hbf : BoxFit chk opts) (hpr : opts.proximity = none) {n : ℕ}
    (hn : 1 ≤ n) (hlim : db.length ≤ n) {out : List MatchEntry}
    (hout : s.getMatching M H chk ⟨phrase, l⟩ opts n = some out) :
    ∃ out', s.getMatching M H chk ⟨phrase, l'⟩ opts n = some out' ∧
      List.Forall₂ (fun r r' => r.entry.relev ≤ r'.entry.relev) out out' := by
  obtain ⟨out', h1, ps, h2, h3, h4⟩ := C92_query hd hs M H hst hl ho hbf
    (fun h => absurd hpr h) hlim hout
  refine ⟨out', h1, ?_⟩
  have s1 := C22_best_first_partial db hd s hs M H chk _ hst opts ho hpr n hn out hout
  have s2 := C22_best_first_partial db hd s hs M H chk ⟨phrase, l'⟩ hst opts ho hpr n hn out' h1
  have := sorted_dominated (out.map (·.entry.relev)) (out'.map (·.entry.relev))
      (ps.map fun p => (p.1.entry.relev, p.2.entry.relev))
      (by have := h2.map fun r : MatchEntry => r.entry.relev
          rw [List.map_map] at this ⊢; exact this)
      (by have := h3.map fun r : MatchEntry => r.entry.relev
          rw [List.map_map] at this ⊢; exact this) ?_
      (List.pairwise_map.2 (s1.imp fun h => h.elim le_of_lt fun h => h.1.le))
      (List.pairwise_map.2 (s2.imp fun h => h.elim le_of_lt fun h => h.1.le))
  · exact (List.forall₂_map_left_iff.1 (List.forall₂_map_right_iff.1 this))
  · intro p hp
    obtain ⟨q, hq, rfl⟩ := List.mem_map.1 hp
    rcases h4 q hq with h | ⟨-, h, -⟩
    · rw [h]
    · exact h

end Carmen
